import Verif.Props.Populate

/-!
# C53: populating makes the context rules symmetric
-/

namespace Lgr.Props.C53
open Lgr LGR Repertoire C50 C26 Populate C28

/-- Some mapping of `x` to `y` has a context rule of this kind. -/
def Ruled (f : Variant → Option String) (g : LGR) (x y : Seq) : Prop :=
  ∃ v r, Maps g x v ∧ v.cp = y ∧ f v = some r ∧ r ≠ ""

/-- The two kinds of context rules. -/
def Kind (f : Variant → Option String) : Prop := f = Variant.whenR ∨ f = Variant.notWhenR

theorem Ruled.mono {f : Variant → Option String} (hf : Kind f) {g g' : LGR} (hg : Grow g g') {x y : Seq}
    (h : Ruled f g x y) : Ruled f g' x y := by
  obtain ⟨v, r, h1, h2, h3, h4⟩ := h
  refine ⟨v, r, hg.ruled x v h1 ?_, h2, h3, h4⟩
  rcases hf with rfl | rfl
  · exact .inl (by rw [h3]; simp)
  · exact .inr (by rw [h3]; simp)

theorem lastRule_of {f : Variant → Option String} {l : List Variant}
    (h : truthy (lastRule f l) = true) : ∃ v ∈ l, truthy (f v) = true := by
  have : ∀ (l : List Variant) (acc : Option String),
      truthy (l.foldl (fun acc r => if truthy (f r) then f r else acc) acc) = true →
      truthy acc = true ∨ ∃ v ∈ l, truthy (f v) = true := by
    intro l
    induction l with
    | nil => intro acc h; exact .inl h
    | cons w l ih =>
      intro acc h
      rw [List.foldl_cons] at h
      rcases ih _ h with h1 | ⟨v, h1, h2⟩
      · by_cases hw : truthy (f w) = true
        · exact .inr ⟨w, by simp, hw⟩
        · rw [if_neg hw] at h1; exact .inl h1
      · exact .inr ⟨v, by simp [h1], h2⟩
  rcases this l none h with h1 | h1
  · cases h1
  · exact h1

theorem fixRule_rules {db : UniDb} {g g' : LGR} (hwf : WF g.rep) {a : Seq} {b : Variant}
    {reverse : List Variant} (hrev : ∀ w ∈ reverse, w.cp = a)
    {rule same other : Option String} {o : Opts}
    (h : fixRule db g a b reverse rule same other o = (g', .ok ())) :
    WF g'.rep ∧
    (∀ x v, Maps g x v → v.whenR ≠ none ∨ v.notWhenR ≠ none → Maps g' x v) ∧
    (∀ x v, Maps g' x v → Maps g x v ∨
      (x = b.cp ∧ v.cp = a ∧ v.whenR = o.whenR ∧ v.notWhenR = o.notWhenR ∧ truthy rule = true)) ∧
    (truthy rule = true → truthy same = true ∨
      ∃ v, Maps g' b.cp v ∧ v.cp = a ∧ v.whenR = o.whenR ∧ v.notWhenR = o.notWhenR) := by
  unfold fixRule at h
  split at h
  · rename_i hc
    simp only [Bool.and_eq_true] at hc
    simp only [Prod.mk.injEq, and_true] at h
    subst h
    exact ⟨hwf, fun x v hv _ => hv, fun x v hv => .inl hv, fun _ => .inl hc.1.2⟩
  split at h
  · rename_i hr
    simp only [Bool.and_eq_true, Bool.not_eq_true'] at hr
    by_cases hoth : truthy other = true
    · rw [if_pos hoth] at h
      obtain ⟨f, -, i, -, m⟩ := addVar_step hwf h
      refine ⟨f.wf, fun x v hv _ => (m x v).2 (.inl hv), fun x v hv => ?_,
        fun _ => .inr ⟨_, (m _ _).2 (.inr ⟨rfl, rfl⟩), rfl, rfl, rfl⟩⟩
      rcases (m x v).1 hv with h1 | ⟨rfl, rfl⟩
      · exact .inl h1
      · exact .inr ⟨rfl, rfl, rfl, rfl, hr.1⟩
    · rw [if_neg hoth] at h
      cases reverse with
      | nil => simp at h
      | cons r rest =>
        have hra := hrev r (by simp)
        simp only at h
        unfold replaceVariant at h
        split at h
        · simp at h
        rename_i g1 d hd
        obtain ⟨f1, i1, m1⟩ := delVar_step hwf hd
        obtain ⟨f2, -, i2, -, m2⟩ := addVar_step f1.wf h
        refine ⟨f2.wf, fun x v hv hr => (m2 x v).2 (.inl ((m1 x v).2 ⟨hv, ?_⟩)), fun x v hv => ?_,
          fun _ => .inr ⟨_, (m2 _ _).2 (.inr ⟨rfl, rfl⟩), hra, rfl, rfl⟩⟩
        · rintro ⟨-, hk⟩
          simp only [Variant.key, Prod.mk.injEq] at hk
          rw [hk.2.1, hk.2.2] at hr
          simp at hr
        rcases (m2 x v).1 hv with h1 | ⟨rfl, rfl⟩
        · exact .inl ((m1 x v).1 h1).1
        · exact .inr ⟨rfl, hra, rfl, rfl, hr.1⟩
  · rename_i h1 h2
    simp only [Prod.mk.injEq, and_true] at h
    subst h
    refine ⟨hwf, fun x v hv _ => hv, fun x v hv => .inl hv, fun ht => .inl ?_⟩
    rw [ht] at h2
    simpa using h2

/-- One body of `_add_symmetry`: new rules only on the reverse mapping and of the kinds of `b`; the
reverse mapping gets a rule of each kind `b` has. -/
theorem symBody_rules {db : UniDb} {g g' : LGR} (hwf : WF g.rep) {a : Seq}
    {b : Variant} (hab : Maps g a b) (h : symBody db a g b = (g', .ok ()))
    {f : Variant → Option String} (hf : Kind f) :
    (∀ x y, Ruled f g' x y → Ruled f g x y ∨ (x = b.cp ∧ y = a ∧ truthy (f b) = true)) ∧
    (truthy (f b) = true → Ruled f g' b.cp a) := by
  have hgrow := (symBody_spec hwf hab h).grow
  have hb : b.cp ≠ [] := maps_ne hwf hab
  unfold symBody at h
  split at h
  · simp at h
  rename_i vs hvs
  obtain ⟨hi, c, hl, rfl⟩ := (getVariants_ok hb).1 hvs
  have hm : ∀ w, Maps g b.cp w ↔ w ∈ c.getVariants := by
    intro w; unfold Maps; rw [hl]; simp
  have hrev : ∀ w, w ∈ c.getVariants.filter (fun v => decide (a = v.cp)) ↔
      Maps g b.cp w ∧ w.cp = a := by
    intro w; rw [hm]; simp [eq_comm]
  simp only at h
  generalize hrv : c.getVariants.filter (fun v => decide (a = v.cp)) = reverse at h hrev
  by_cases h0 : reverse = []
  · rw [if_pos h0] at h
    obtain ⟨fr, -, i, -, m⟩ := addVar_step hwf h
    constructor
    · rintro x y ⟨v, r, h1, rfl, h3, h4⟩
      rcases (m x v).1 h1 with h5 | ⟨rfl, rfl⟩
      · exact .inl ⟨v, r, h5, rfl, h3, h4⟩
      · refine .inr ⟨rfl, rfl, ?_⟩
        rcases hf with rfl | rfl
        · exact truthy_iff.2 ⟨r, h3, h4⟩
        · exact truthy_iff.2 ⟨r, h3, h4⟩
    · intro ht
      obtain ⟨r, h3, h4⟩ := truthy_iff.1 ht
      refine ⟨_, r, (m _ _).2 (.inr ⟨rfl, rfl⟩), rfl, ?_, h4⟩
      rcases hf with rfl | rfl
      · exact h3
      · exact h3
  · rw [if_neg h0] at h
    split at h
    · simp at h
    rename_i g1 h1
    obtain ⟨w1, k1, p1, q1⟩ := fixRule_rules hwf (fun w hw => ((hrev w).1 hw).2) h1
    obtain ⟨w2, k2, p2, q2⟩ := fixRule_rules w1 (fun w hw => ((hrev w).1 hw).2) h
    have hlast : ∀ f, Kind f → truthy (lastRule f reverse) = true → Ruled f g' b.cp a := by
      intro f hf ht
      obtain ⟨v, hv, ht⟩ := lastRule_of ht
      obtain ⟨r, h3, h4⟩ := truthy_iff.1 ht
      have hr := (hrev v).1 hv
      exact Ruled.mono hf hgrow ⟨v, r, hr.1, hr.2, h3, h4⟩
    constructor
    · rintro x y ⟨v, r, h1, rfl, h3, h4⟩
      rcases p2 x v h1 with h5 | ⟨rfl, hva, hw, hn, ht⟩
      · rcases p1 x v h5 with h6 | ⟨rfl, hva, hw, hn, ht⟩
        · exact .inl ⟨v, r, h6, rfl, h3, h4⟩
        · refine .inr ⟨rfl, hva, ?_⟩
          rcases hf with rfl | rfl
          · exact ht
          · rw [hn] at h3; cases h3
      · refine .inr ⟨rfl, hva, ?_⟩
        rcases hf with rfl | rfl
        · rw [hw] at h3; cases h3
        · exact ht
    · intro ht
      obtain ⟨r, h3, h4⟩ := truthy_iff.1 ht
      rcases hf with rfl | rfl
      · rcases q1 ht with h5 | ⟨v, h5, h6, h7, h8⟩
        · exact hlast _ (.inl rfl) h5
        · have hv : v.whenR = some r := h7.trans h3
          exact ⟨v, r, k2 _ v h5 (.inl (by rw [hv]; simp)), h6, hv, h4⟩
      · rcases q2 ht with h5 | ⟨v, h5, h6, h7, h8⟩
        · exact hlast _ (.inr rfl) h5
        · exact ⟨v, r, h5, h6, h8.trans h3, h4⟩

/-- A sweep of `_add_symmetry` makes the rules symmetric. -/
theorem addSymmetry_rules {db : UniDb} {g g' : LGR} (hwf : WF g.rep)
    (h : addSymmetry db g = (g', .ok ())) {f : Variant → Option String} (hf : Kind f) :
    ∀ x y, Ruled f g' x y → Ruled f g' y x := by
  let Inv : LGR → Prop := fun k => Grow g k ∧ ∀ x y, Ruled f k x y → Ruled f g x y ∨ Ruled f k y x
  have inner : ∀ a k k', WF k.rep → Inv k → forVariants (symBody db a) k a = (k', .ok ()) →
      WF k'.rep ∧ Grow k k' ∧ Inv k' ∧ ∀ y, Ruled f g a y → Ruled f k' y a := by
    intro a k k' hw hi h
    obtain ⟨w, gr, i, p⟩ := forVariants_spec (f := symBody db) (Inv := Inv)
      (Post := fun a v k => truthy (f v) = true → Ruled f k v.cp a)
      (fun a v k k' hi hg hp ht => (hp ht).mono hf hg)
      (fun a k b k' hw hi hm hs => by
        have s := symBody_spec hw hm hs
        obtain ⟨r1, r2⟩ := symBody_rules hw hm hs hf
        refine ⟨s.wf, s.grow, ⟨hi.1.trans s.grow, fun x y hxy => ?_⟩,
          fun u hu => (s.listed u ⟨u, hu, rfl⟩).2 hu, r2⟩
        rcases r1 x y hxy with h1 | ⟨rfl, rfl, ht⟩
        · rcases hi.2 x y h1 with h2 | h2
          · exact .inl h2
          · exact .inr (h2.mono hf s.grow)
        · obtain ⟨r, h3, h4⟩ := truthy_iff.1 ht
          exact .inr (Ruled.mono hf s.grow ⟨b, r, hm, rfl, h3, h4⟩)) hw hi h
    refine ⟨w, gr, i, fun y hy => ?_⟩
    obtain ⟨v, r, h1, rfl, h3, h4⟩ := hy.mono hf hi.1
    exact p v h1 (truthy_iff.2 ⟨r, h3, h4⟩)
  obtain ⟨w, gr, i, q⟩ := forRepertoire_spec (Inv := Inv)
    (Q := fun a k => ∀ y, Ruled f g a y → Ruled f k y a)
    (fun a k k' hg hq y hy => (hq y hy).mono hf hg) inner hwf ⟨.refl g, fun x y h => .inl h⟩ h
  intro x y hxy
  rcases i.2 x y hxy with h1 | h1
  · obtain ⟨v, r, ⟨c, hc, hv⟩, h2⟩ := id h1
    exact q x c hc (variant_nonrange (lookup_charWF hwf hc).varWF hv) y h1
  · exact h1

/-- **C53** On normal return of `populate_lgr`, when a mapping has a when (not-when) rule, some
reverse mapping has a when (not-when) rule too; the empty string is no rule. -/
theorem populate_rules_symmetric (db : UniDb) (n : Nat) (g g' : LGR) (hwf : WF g.rep)
    (h : populate db n g = some (g', .ok ())) (x : Seq) (v : Variant) (hv : Maps g' x v) :
    (∀ r, v.whenR = some r → r ≠ "" → ∃ w r', Maps g' v.cp w ∧ w.cp = x ∧ w.whenR = some r' ∧ r' ≠ "") ∧
    (∀ r, v.notWhenR = some r → r ≠ "" →
      ∃ w r', Maps g' v.cp w ∧ w.cp = x ∧ w.notWhenR = some r' ∧ r' ≠ "") := by
  have hT : Bound (fun _ _ => True) := ⟨by simp, by simp⟩
  have key : ∀ f, Kind f → ∀ x y, Ruled f g' x y → Ruled f g' y x := by
    intro f hf
    unfold populate at h
    split at h
    · simp at h
    rename_i g1 h1
    obtain ⟨w1, gr1, -⟩ := missing_spec (R := fun _ _ => True) hwf (by simp) (by simp) h1
    split at h
    · simp at h
    · simp at h
    rename_i g2 h2
    obtain ⟨w2, gr2, -⟩ := fixLoop_spec hT n w1 (by simp) h2
    simp only [Option.some.injEq] at h
    unfold finish at h
    split at h
    · simp at h
    · rename_i es hs
      simp only [Prod.mk.injEq, and_true] at h
      subst h
      have := (check_symmetry_rules_exact db g2 w2 true es hs).1 rfl
      rintro x y ⟨v, r, h1, rfl, h3, h4⟩
      obtain ⟨-, -, k1, k2⟩ := this x v h1
      rcases hf with rfl | rfl
      · obtain ⟨w, h5, h6, h7⟩ := k1 r h3 h4
        exact ⟨w, r, h5, h6, h7, h4⟩
      · obtain ⟨w, h5, h6, h7⟩ := k2 r h3 h4
        exact ⟨w, r, h5, h6, h7, h4⟩
    · exact addSymmetry_rules w2 h hf
  exact ⟨fun r h1 h2 => key _ (.inl rfl) x v.cp ⟨v, r, hv, rfl, h1, h2⟩,
    fun r h1 h2 => key _ (.inr rfl) x v.cp ⟨v, r, hv, rfl, h1, h2⟩⟩

/-! Non-vacuity: 1 → 2 with a when rule, 2 → 1 without: the latter gets the rule. -/
open C27 in
def ruleOps : List (LGR.Ctx × LGR.Op) :=
  [(ctx, .addCp (.int 1) {}), (ctx, .addCp (.int 2) {}),
   (ctx, .addVariant (.int 1) (.int 2) none { whenR := some "w" }),
   (ctx, .addVariant (.int 2) (.int 1) (some "allocatable") {})]

example : (match populate none 5 (LGR.run {} ruleOps) with
    | some (g', .ok ()) => (g'.rep.lookup [2]).map CharObj.getVariants
    | _ => none) = some [⟨[1], some "allocatable", some "w", none, none, []⟩] := by
  decide +kernel

end Lgr.Props.C53
