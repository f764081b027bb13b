import Verif.Harmonize
import Verif.Props.Compare
import Verif.Props.PopulateRules

/-!
# C46: harmonising two LGRs
-/

namespace Lgr.Props.C46
open Lgr LGR Repertoire C50 C26 C28 Compare Populate Harmonize

/-! ### The specification -/

/-- Code points and pairs (code point, variant). -/
structure Graph where
  node : Seq → Prop
  edge : Seq → Seq → Prop

/-- The code points and the pairs of an LGR. -/
def graph (g : LGR) : Graph := ⟨fun x => ∃ c, g.rep.lookup x = some c,
  fun x y => ∃ c, g.rep.lookup x = some c ∧ ∃ v ∈ c.getVariants, v.cp = y⟩

/-- The pairs of `A`, and those of `B` starting at a code point of both. -/
def Graph.merged (A B : Graph) (x y : Seq) : Prop :=
  A.edge x y ∨ A.node x ∧ B.node x ∧ B.edge x y ∧ x ≠ y

/-- `A` harmonised with `B`: the code points are those of `A` and of the merged pairs; two different
code points are variants when the merged pairs connect them; a code point is its own variant when it
was so in `A`, or is new there and a variant, in `B` but not in `A`, of a code point of both. -/
def Graph.harm (A B : Graph) : Graph where
  node x := A.node x ∨ ∃ a, A.merged B a x
  edge x y := x ≠ y ∧ Relation.EqvGen (A.merged B) x y ∨
    x = y ∧ (A.edge x x ∨ ¬ A.node x ∧ ∃ c, A.node c ∧ B.node c ∧ B.edge c x ∧ ¬ A.edge c x)

/-- Pairs go both ways and compose. -/
structure Graph.Closed (A : Graph) : Prop where
  symm : ∀ x y, A.edge x y → A.edge y x
  trans : ∀ x y z, A.edge x y → A.edge y z → x ≠ z → A.edge x z
  node : ∀ x y, A.edge x y → A.node x

theorem edge_pair {g : LGR} {x y : Seq} : (graph g).edge x y ↔ Pair g x y := by
  constructor
  · rintro ⟨c, hc, v, hv, rfl⟩; exact ⟨v, ⟨c, hc, hv⟩, rfl⟩
  · rintro ⟨v, ⟨c, hc, hv⟩, rfl⟩; exact ⟨c, hc, v, hv, rfl⟩

theorem node_in {g : LGR} {x : Seq} : (graph g).node x ↔ In g x := Iff.rfl

theorem Graph.ext' {A B : Graph} (h1 : ∀ x, A.node x ↔ B.node x) (h2 : ∀ x y, A.edge x y ↔ B.edge x y) :
    A = B := by
  cases A; cases B
  simp only [Graph.mk.injEq]
  exact ⟨funext fun x => propext (h1 x), funext fun x => funext fun y => propext (h2 x y)⟩

/-! ### What the graph operation gives -/

/-- A pair of either LGR starting at a code point of both is in the result. -/
theorem harm_has {A B : Graph} {x y : Seq} (hx : A.node x) (hx' : B.node x) (hne : x ≠ y)
    (h : A.edge x y ∨ B.edge x y) : (A.harm B).edge x y := by
  refine .inl ⟨hne, .rel _ _ ?_⟩
  rcases h with h | h
  · exact .inl h
  · exact .inr ⟨hx, hx', h, hne⟩

theorem harm_edge {A B : Graph} {x y : Seq} (h : A.edge x y) : (A.harm B).edge x y := by
  by_cases hne : x = y
  · subst hne; exact .inr ⟨rfl, .inl h⟩
  · exact .inl ⟨hne, .rel _ _ (.inl h)⟩

theorem harm_closed {A B : Graph} (hA : ∀ x y, A.edge x y → A.node x) : (A.harm B).Closed where
  symm := by
    rintro x y (⟨h1, h2⟩ | ⟨rfl, h⟩)
    · exact .inl ⟨Ne.symm h1, .symm _ _ h2⟩
    · exact .inr ⟨rfl, h⟩
  trans := by
    have hh : ∀ x y, (A.harm B).edge x y → Relation.EqvGen (A.merged B) x y := by
      rintro x y (⟨-, h⟩ | ⟨rfl, -⟩)
      · exact h
      · exact .refl _
    intro x y z h1 h2 hz
    exact .inl ⟨hz, .trans _ _ _ (hh _ _ h1) (hh _ _ h2)⟩
  node := by
    have hn : ∀ x y, Relation.EqvGen (A.merged B) x y →
        ((A.harm B).node x ↔ (A.harm B).node y) := by
      intro x y h
      induction h with
      | rel x y h =>
        exact ⟨fun _ => .inr ⟨x, h⟩, fun _ => .inl (h.elim (hA _ _) (fun h => h.1))⟩
      | refl x => exact Iff.rfl
      | symm x y _ ih => exact ih.symm
      | trans x y z _ _ i1 i2 => exact i1.trans i2
    have hs : ∀ x y, Relation.EqvGen (A.merged B) x y → x = y ∨ (A.harm B).node x := by
      intro x y h
      induction h with
      | rel x y h => exact .inr (.inl (h.elim (hA _ _) (fun h => h.1)))
      | refl x => exact .inl rfl
      | symm x y h ih =>
        rcases ih with rfl | ih
        · exact .inl rfl
        · exact .inr ((hn _ _ h).1 ih)
      | trans x y z h _ i1 i2 =>
        rcases i1 with rfl | i1
        · exact i2
        · exact .inr i1
    rintro x y (⟨h1, h2⟩ | ⟨rfl, h | ⟨-, c, h1, h2, h3, -⟩⟩)
    · exact (hs _ _ h2).resolve_left h1
    · exact .inl (hA _ _ h)
    · by_cases hc : c = x
      · subst hc; exact .inl h1
      · exact .inr ⟨c, .inr ⟨h1, h2, h3, hc⟩⟩

/-- Connected through the merged pairs of one side, starting near a code point of both, is connected
through those of the other. -/
theorem agree_conn {A B : Graph} (hA : A.Closed) (hB : B.Closed) {x y : Seq}
    (h : Relation.EqvGen (A.merged B) x y)
    (hx : ∃ c, A.node c ∧ B.node c ∧ (c = x ∨ A.edge c x ∨ B.edge c x)) :
    Relation.EqvGen (B.merged A) x y := by
  let T : Seq → Prop := fun z => ∃ c, A.node c ∧ B.node c ∧ (c = z ∨ A.edge c z ∨ B.edge c z)
  have one : ∀ x y, A.edge x y → T x → T y ∧ Relation.EqvGen (B.merged A) x y := by
    have base : ∀ c x y, A.node c → B.node c → (c = x ∨ A.edge c x) → A.edge x y →
        T y ∧ Relation.EqvGen (B.merged A) x y := by
      intro c x y hc hc' hcx hxy
      have conn : ∀ z, (c = z ∨ A.edge c z) → Relation.EqvGen (B.merged A) c z := by
        intro z hz
        by_cases hcz : c = z
        · subst hcz; exact .refl _
        · exact .rel _ _ (.inr ⟨hc', hc, hz.resolve_left hcz, hcz⟩)
      have hcy : c = y ∨ A.edge c y := by
        rcases hcx with rfl | hcx
        · exact .inr hxy
        · by_cases hcy : c = y
          · exact .inl hcy
          · exact .inr (hA.trans _ _ _ hcx hxy hcy)
      exact ⟨⟨c, hc, hc', hcy.elim .inl (fun h => .inr (.inl h))⟩,
        .trans _ _ _ (.symm _ _ (conn x hcx)) (conn y hcy)⟩
    rintro x y hxy ⟨c, hc, hc', h | h | h⟩
    · exact base c x y hc hc' (.inl h) hxy
    · exact base c x y hc hc' (.inr h) hxy
    · exact base x x y (hA.node _ _ hxy) (hB.node _ _ (hB.symm _ _ h)) (.inl rfl) hxy
  have all : ∀ x y, Relation.EqvGen (A.merged B) x y →
      (T x ↔ T y) ∧ (T x → Relation.EqvGen (B.merged A) x y) := by
    intro x y h
    induction h with
    | rel x y h =>
      rcases h with h | ⟨h1, h2, h3, h4⟩
      · exact ⟨⟨fun t => (one x y h t).1, fun t => (one y x (hA.symm _ _ h) t).1⟩,
          fun t => (one x y h t).2⟩
      · exact ⟨⟨fun _ => ⟨x, h1, h2, .inr (.inr h3)⟩, fun _ => ⟨x, h1, h2, .inl rfl⟩⟩,
          fun _ => .rel _ _ (.inl h3)⟩
    | refl x => exact ⟨Iff.rfl, fun _ => .refl _⟩
    | symm x y _ ih => exact ⟨ih.1.symm, fun t => .symm _ _ (ih.2 (ih.1.2 t))⟩
    | trans x y z _ _ i1 i2 =>
      exact ⟨i1.1.trans i2.1, fun t => .trans _ _ _ (i1.2 t) (i2.2 (i1.1.1 t))⟩
  exact (all x y h).2 hx

/-- A code point of both results is a code point of both LGRs or a variant of one. -/
theorem harm_near {A B : Graph} (hA : A.Closed) (hB : B.Closed) {x : Seq} (hx : (A.harm B).node x)
    (hx' : (B.harm A).node x) : ∃ c, A.node c ∧ B.node c ∧ (c = x ∨ A.edge c x ∨ B.edge c x) := by
  have one : A.node x → ∃ c, A.node c ∧ B.node c ∧ (c = x ∨ A.edge c x ∨ B.edge c x) := by
    intro ha
    rcases hx' with hb | ⟨a, hb | ⟨h1, h2, h3, -⟩⟩
    · exact ⟨x, ha, hb, .inl rfl⟩
    · exact ⟨x, ha, hB.node _ _ (hB.symm _ _ hb), .inl rfl⟩
    · exact ⟨a, h2, h1, .inr (.inl h3)⟩
  rcases hx with ha | ⟨a, ha | ⟨h1, h2, h3, -⟩⟩
  · exact one ha
  · exact one (hA.node _ _ (hA.symm _ _ ha))
  · exact ⟨a, h1, h2, .inr (.inr h3)⟩

/-- A code point of both results has the same variants in both, other than itself, when both LGRs
were symmetric and transitive. -/
theorem harm_agree {A B : Graph} (hA : A.Closed) (hB : B.Closed) {x y : Seq} (hne : x ≠ y)
    (hx : (A.harm B).node x) (hx' : (B.harm A).node x) :
    (A.harm B).edge x y ↔ (B.harm A).edge x y := by
  constructor
  · rintro (⟨-, h⟩ | ⟨h, -⟩)
    · exact .inl ⟨hne, agree_conn hA hB h (harm_near hA hB hx hx')⟩
    · exact absurd h hne
  · rintro (⟨-, h⟩ | ⟨h, -⟩)
    · exact .inl ⟨hne, agree_conn hB hA h (harm_near hB hA hx' hx)⟩
    · exact absurd h hne

/-! ### The loops -/

/-- Comment of what is added to the repertoire. -/
def oor : Option String := some "Out-of-repertoire"

/-- The state `g` of one LGR in the loops, from `g0`, once the variants `D` were found missing. -/
structure Stage (g0 : LGR) (D : Seq → Seq → Prop) (g : LGR) : Prop where
  wf : WF g.rep
  keep : ∀ x c, g0.rep.lookup x = some c → ∃ c', g.rep.lookup x = some c' ∧ c'.attrs = c.attrs ∧
    c'.range = c.range
  fresh : ∀ x c, g0.rep.lookup x = none → g.rep.lookup x = some c →
    c.attrs = { comment := oor } ∧ c.range = none
  refs : g.refs = g0.refs
  raise : g.raiseInvalid = g0.raiseInvalid
  inn : ∀ x, In g x ↔ In g0 x ∨ ∃ a, D a x
  maps : ∀ x u, Maps g x u ↔ Maps g0 x u ∨
    (D x u.cp ∧ x ≠ u.cp ∧ u = ⟨u.cp, some "blocked", none, none, none, []⟩) ∨
    (¬ In g0 x ∧ (∃ a, D a x) ∧ u = ⟨x, some "out-of-repertoire", none, none, oor, []⟩)

theorem Stage.start {g0 : LGR} (hwf : WF g0.rep) : Stage g0 (fun _ _ => False) g0 :=
  ⟨hwf, fun _ c h => ⟨c, h, rfl, rfl⟩, fun _ _ h h' => (by rw [h] at h'; cases h'), rfl, rfl,
    by simp, by simp⟩

theorem Stage.congr {g0 g : LGR} {D D' : Seq → Seq → Prop} (h : Stage g0 D g)
    (hD : ∀ a b, D a b ↔ D' a b) : Stage g0 D' g := by
  have : D = D' := funext fun a => funext fun b => propext (hD a b)
  exact this ▸ h

theorem addCp_oor {db : UniDb} {g g' : LGR} (hwf : WF g.rep) {s : Seq}
    (h : g.addCp db (.seq s) { comment := some "Out-of-repertoire" } = (g', .ok ())) :
    WF g'.rep ∧ g.rep.lookup s = none ∧ g'.refs = g.refs ∧ g'.raiseInvalid = g.raiseInvalid ∧
    ∀ k, g'.rep.lookup k = if k = s then some { cp := s, attrs := { comment := oor } }
      else g.rep.lookup k := by
  have hok : (g.addCp db (.seq s) { comment := some "Out-of-repertoire" }).2 = .ok () := by rw [h]
  obtain ⟨s', h1, h2, h3, h4, -, h6, h7, h8⟩ := add_cp_effect db g _ _ hok
  have hw : WF g'.rep := by
    have := (inv_addCp (P := fun _ => True) (db := db) (arg := .seq s)
      (o := { comment := some "Out-of-repertoire" }) ⟨hwf, by simp⟩ (by simp)).wf
    rwa [h] at this
  have e1 := denotes_seq h1
  subst e1
  rw [h] at h3 h6 h8
  exact ⟨hw, h2, h6, h8, by simpa [knownRefs, oor] using h3⟩

/-- Adding one blocked variant. -/
theorem stage_blocked {db : UniDb} {g0 g g' : LGR} {D : Seq → Seq → Prop} (hs : Stage g0 D g)
    {cp v : Seq} (hne : v ≠ cp) (hv : In g v)
    (h : g.addVariant db (.seq cp) (.seq v) (some "blocked") {} = (g', .ok ())) :
    Stage g0 (fun a b => D a b ∨ a = cp ∧ b = v) g' := by
  obtain ⟨hf, -, hi, -, hm⟩ := addVar_step hs.wf h
  have hD : ∀ x, ¬ In g0 x → ((∃ a, D a x ∨ a = cp ∧ x = v) ↔ ∃ a, D a x) := by
    intro x hx
    constructor
    · rintro ⟨a, ha | ⟨rfl, rfl⟩⟩
      · exact ⟨a, ha⟩
      · exact ((hs.inn _).1 hv).resolve_left hx
    · rintro ⟨a, ha⟩; exact ⟨a, .inl ha⟩
  refine ⟨hf.wf, fun x c hc => ?_, fun x c hn hc => ?_, hf.refs.trans hs.refs,
    hf.raise.trans hs.raise, fun x => ?_, fun x u => ?_⟩
  · obtain ⟨c1, h1, h2, h3⟩ := hs.keep x c hc
    obtain ⟨c2, h4, h5, h6⟩ := hf.keep x c1 h1
    exact ⟨c2, h4, h5.trans h2, h6.trans h3⟩
  · obtain ⟨c1, h1⟩ := (hi x).1 ⟨c, hc⟩
    obtain ⟨h2, h3⟩ := hs.fresh x c1 hn h1
    obtain ⟨c2, h4, h5, h6⟩ := hf.keep x c1 h1
    rw [hc] at h4; cases h4
    exact ⟨h5.trans h2, h6.trans h3⟩
  · rw [hi, hs.inn]
    by_cases hx : In g0 x
    · simp [hx]
    · simp only [hx, false_or, hD x hx]
  · rw [hm, hs.maps]
    constructor
    · rintro ((h1 | ⟨h1, h2, h3⟩ | ⟨h1, h2, h3⟩) | ⟨rfl, rfl⟩)
      · exact .inl h1
      · exact .inr (.inl ⟨.inl h1, h2, h3⟩)
      · exact .inr (.inr ⟨h1, (hD x h1).2 h2, h3⟩)
      · exact .inr (.inl ⟨.inr ⟨rfl, rfl⟩, Ne.symm hne, rfl⟩)
    · rintro (h1 | ⟨h1 | ⟨rfl, h1⟩, h2, h3⟩ | ⟨h1, h2, h3⟩)
      · exact .inl (.inl h1)
      · exact .inl (.inr (.inl ⟨h1, h2, h3⟩))
      · refine .inr ⟨rfl, ?_⟩
        rw [h3, h1]; rfl
      · exact .inl (.inr (.inr ⟨h1, (hD x h1).1 h2, h3⟩))

/-- Adding a code point with its identity mapping; the pair that wants it comes next. -/
theorem stage_new {db : UniDb} {g0 g g1 g' : LGR} {D : Seq → Seq → Prop} (hs : Stage g0 D g)
    {cp v : Seq}
    (h1 : g.addCp db (.seq v) { comment := some "Out-of-repertoire" } = (g1, .ok ()))
    (h2 : g1.addVariant db (.seq v) (.seq v) (some "out-of-repertoire")
      { comment := some "Out-of-repertoire" } = (g', .ok ())) (hcp : In g0 cp) :
    v ≠ cp ∧ In g' v ∧ ∀ g'', g'.addVariant db (.seq cp) (.seq v) (some "blocked") {} = (g'', .ok ()) →
      Stage g0 (fun a b => D a b ∨ a = cp ∧ b = v) g'' := by
  obtain ⟨w1, hn, r1, q1, l1⟩ := addCp_oor hs.wf h1
  obtain ⟨f2, -, i2, -, m2⟩ := addVar_step w1 h2
  have hin1 : ∀ x, In g1 x ↔ In g x ∨ x = v := by
    intro x; unfold In; rw [l1]
    by_cases hx : x = v <;> simp [hx]
  have hmap1 : ∀ x u, Maps g1 x u ↔ Maps g x u := by
    intro x u; unfold Maps; rw [l1]
    by_cases hx : x = v
    · subst hx
      simp only [if_true, Option.some.injEq, exists_eq_left', hn]
      simp [CharObj.getVariants, sortAsc]
    · rw [if_neg hx]
  have hvn : ¬ In g v := by rintro ⟨c, hc⟩; rw [hn] at hc; cases hc
  have hv0 : ¬ In g0 v := fun hh => hvn ((hs.inn v).2 (.inl hh))
  have hvD : ∀ a, ¬ D a v := fun a ha => hvn ((hs.inn v).2 (.inr ⟨a, ha⟩))
  have hne : v ≠ cp := by rintro rfl; exact hv0 hcp
  have hvl : g0.rep.lookup v = none := by
    cases hh : g0.rep.lookup v with
    | none => rfl
    | some c => exact absurd ⟨c, hh⟩ hv0
  refine ⟨hne, (i2 v).2 ((hin1 v).2 (.inr rfl)), fun g'' h3 => ?_⟩
  obtain ⟨f3, -, i3, -, m3⟩ := addVar_step f2.wf h3
  refine ⟨f3.wf, fun x c hc => ?_, fun x c hc0 hc => ?_,
    f3.refs.trans (f2.refs.trans (r1.trans hs.refs)),
    f3.raise.trans (f2.raise.trans (q1.trans hs.raise)), fun x => ?_, fun x u => ?_⟩
  · obtain ⟨c1, a1, a2, a3⟩ := hs.keep x c hc
    have hxv : x ≠ v := by rintro rfl; exact hv0 ⟨c, hc⟩
    have : g1.rep.lookup x = some c1 := by rw [l1, if_neg hxv]; exact a1
    obtain ⟨c2, b1, b2, b3⟩ := f2.keep x c1 this
    obtain ⟨c3, d1, d2, d3⟩ := f3.keep x c2 b1
    exact ⟨c3, d1, d2.trans (b2.trans a2), d3.trans (b3.trans a3)⟩
  · have hx1 : ∃ c1, g1.rep.lookup x = some c1 ∧ c1.attrs = { comment := oor } ∧ c1.range = none := by
      rw [l1]
      by_cases hxv : x = v
      · exact ⟨_, if_pos hxv, rfl, rfl⟩
      · rw [if_neg hxv]
        have : In g1 x := (i2 x).1 ((i3 x).1 ⟨c, hc⟩)
        obtain ⟨c1, hc1⟩ := ((hin1 x).1 this).resolve_right hxv
        exact ⟨c1, hc1, hs.fresh x c1 hc0 hc1⟩
    obtain ⟨c1, e1, e2, e3⟩ := hx1
    obtain ⟨c2, b1, b2, b3⟩ := f2.keep x c1 e1
    obtain ⟨c3, d1, d2, d3⟩ := f3.keep x c2 b1
    rw [hc] at d1; cases d1
    exact ⟨d2.trans (b2.trans e2), d3.trans (b3.trans e3)⟩
  · rw [i3, i2, hin1, hs.inn]
    constructor
    · rintro ((h | ⟨a, h⟩) | rfl)
      · exact .inl h
      · exact .inr ⟨a, .inl h⟩
      · exact .inr ⟨cp, .inr ⟨rfl, rfl⟩⟩
    · rintro (h | ⟨a, h | ⟨-, rfl⟩⟩)
      · exact .inl (.inl h)
      · exact .inl (.inr ⟨a, h⟩)
      · exact .inr rfl
  · rw [m3, m2, hmap1, hs.maps]
    constructor
    · rintro (((h | ⟨h, h', h''⟩ | ⟨h, ⟨a, h'⟩, h''⟩) | ⟨rfl, rfl⟩) | ⟨rfl, rfl⟩)
      · exact .inl h
      · exact .inr (.inl ⟨.inl h, h', h''⟩)
      · exact .inr (.inr ⟨h, ⟨a, .inl h'⟩, h''⟩)
      · exact .inr (.inr ⟨hv0, ⟨cp, .inr ⟨rfl, rfl⟩⟩, rfl⟩)
      · exact .inr (.inl ⟨.inr ⟨rfl, rfl⟩, Ne.symm hne, rfl⟩)
    · rintro (h | ⟨h | ⟨rfl, h⟩, h', h''⟩ | ⟨h, ⟨a, h' | ⟨rfl, rfl⟩⟩, h''⟩)
      · exact .inl (.inl (.inl h))
      · exact .inl (.inl (.inr (.inl ⟨h, h', h''⟩)))
      · refine .inr ⟨rfl, ?_⟩
        rw [h'', h]; rfl
      · exact .inl (.inl (.inr (.inr ⟨h, ⟨a, h'⟩, h''⟩)))
      · exact .inl (.inr ⟨rfl, by rw [h'']; rfl⟩)

theorem addMissing_stage {db : UniDb} {g0 g g' : LGR} {D : Seq → Seq → Prop} (hs : Stage g0 D g)
    {cp v : Seq} (hcp : In g0 cp) (h : addMissing db cp g v = (g', .ok ())) :
    Stage g0 (fun a b => D a b ∨ a = cp ∧ b = v) g' := by
  unfold addMissing at h
  split at h
  · split at h
    · simp at h
    rename_i g1 h1
    split at h
    · simp at h
    rename_i g2 h2
    exact (stage_new hs h1 h2 hcp).2.2 _ h
  rename_i hin
  have hv : In g v := by
    have h1 : g.rep.hasCp v = true := by simpa using hin
    rw [hasCp_iff] at h1
    exact Option.isSome_iff_exists.1 h1
  split at h
  · rename_i he
    subst he
    simp only [Prod.mk.injEq, and_true] at h
    subst h
    refine ⟨hs.wf, hs.keep, hs.fresh, hs.refs, hs.raise, fun x => ?_, fun x u => ?_⟩
    · rw [hs.inn]
      constructor
      · rintro (h | ⟨a, h⟩)
        · exact .inl h
        · exact .inr ⟨a, .inl h⟩
      · rintro (h | ⟨a, h | ⟨-, rfl⟩⟩)
        · exact .inl h
        · exact .inr ⟨a, h⟩
        · exact .inl hcp
    · rw [hs.maps]
      constructor
      · rintro (h | ⟨h, h', h''⟩ | ⟨h, ⟨a, h'⟩, h''⟩)
        · exact .inl h
        · exact .inr (.inl ⟨.inl h, h', h''⟩)
        · exact .inr (.inr ⟨h, ⟨a, .inl h'⟩, h''⟩)
      · rintro (h | ⟨h | ⟨rfl, h⟩, h', h''⟩ | ⟨h, ⟨a, h' | ⟨rfl, rfl⟩⟩, h''⟩)
        · exact .inl h
        · exact .inr (.inl ⟨h, h', h''⟩)
        · exact absurd h.symm h'
        · exact .inr (.inr ⟨h, ⟨a, h'⟩, h''⟩)
        · exact absurd hcp h
  · rename_i hne
    exact stage_blocked hs hne hv h

theorem forMissing_stage {db : UniDb} {g0 : LGR} {cp : Seq} (hcp : In g0 cp) : ∀ (vs : List Seq)
    {g g' : LGR} {D : Seq → Seq → Prop}, Stage g0 D g →
    forEach (addMissing db cp) g vs = (g', .ok ()) →
    Stage g0 (fun a b => D a b ∨ a = cp ∧ b ∈ vs) g' := by
  intro vs
  induction vs with
  | nil =>
    intro g g' D hs h
    simp only [forEach, Prod.mk.injEq, and_true] at h
    subst h
    exact hs.congr (by simp)
  | cons v vs ih =>
    intro g g' D hs h
    unfold forEach at h
    split at h
    · simp at h
    rename_i g1 h1
    refine (ih (addMissing_stage hs hcp h1) h).congr fun a b => ?_
    simp only [List.mem_cons]
    tauto

/-- What is missing from `g0` among the variants that `g0'` has for the code points `L`. -/
def Miss (g0 g0' : LGR) (L : List Seq) (a b : Seq) : Prop := a ∈ L ∧ Pair g0' a b ∧ ¬ Pair g0 a b

theorem stage_pair {g0 g0' g : LGR} {L : List Seq} (hs : Stage g0 (Miss g0 g0' L) g) {cp : Seq}
    (hn : cp ∉ L) (hcp : In g0 cp) (y : Seq) : Pair g cp y ↔ Pair g0 cp y := by
  constructor
  · rintro ⟨v, hv, rfl⟩
    rcases (hs.maps cp v).1 hv with h | ⟨⟨h, -⟩, -⟩ | ⟨h, -⟩
    · exact ⟨v, h, rfl⟩
    · exact absurd h hn
    · exact absurd hcp h
  · rintro ⟨v, hv, rfl⟩
    exact ⟨v, (hs.maps cp v).2 (.inl hv), rfl⟩

theorem mem_variantCps {g : LGR} {x : Seq} {c : CharObj} (hc : g.rep.lookup x = some c) (y : Seq) :
    y ∈ variantCps c ↔ Pair g x y := by
  unfold variantCps
  rw [C30.mem_toSet, List.mem_map]
  constructor
  · rintro ⟨v, hv, rfl⟩; exact ⟨v, ⟨c, hc, hv⟩, rfl⟩
  · rintro ⟨v, ⟨d, hd, hv⟩, rfl⟩
    rw [hc] at hd; cases hd
    exact ⟨v, hv, rfl⟩

theorem step_stage {ord : SetOrder} {db1 db2 : UniDb} {a0 b0 : LGR} {L : List Seq}
    {s s' : LGR × LGR} {cp : Seq} (hn : cp ∉ L) (ha : In a0 cp) (hb : In b0 cp)
    (h1 : Stage a0 (Miss a0 b0 L) s.1) (h2 : Stage b0 (Miss b0 a0 L) s.2)
    (h : Harmonize.step ord db1 db2 s cp = (s', .ok ())) :
    Stage a0 (Miss a0 b0 (cp :: L)) s'.1 ∧ Stage b0 (Miss b0 a0 (cp :: L)) s'.2 := by
  unfold Harmonize.step at h
  split at h
  · simp at h
  rename_i c1 hc1
  split at h
  · simp at h
  rename_i c2 hc2
  replace hc1 := C30.getChar_seq hc1
  replace hc2 := C30.getChar_seq hc2
  dsimp only at h
  split at h
  · simp at h
  rename_i g2 e2
  generalize e1 : forEach (addMissing db1 cp) s.1 _ = r at h
  obtain ⟨g1, r⟩ := r
  simp only [Prod.mk.injEq] at h
  obtain ⟨rfl, rfl⟩ := h
  have v1 : ∀ y, y ∈ variantCps c1 ↔ Pair a0 cp y := fun y =>
    (mem_variantCps hc1 y).trans (stage_pair h1 hn ha y)
  have v2 : ∀ y, y ∈ variantCps c2 ↔ Pair b0 cp y := fun y =>
    (mem_variantCps hc2 y).trans (stage_pair h2 hn hb y)
  constructor
  · refine (forMissing_stage ha _ h1 e1).congr fun a b => ?_
    rw [(ord.seqs_perm _).mem_iff]
    simp only [List.mem_filter, decide_eq_true_eq, v1, v2]
    unfold Miss
    simp only [List.mem_cons]
    constructor
    · rintro (h | ⟨rfl, h⟩)
      · exact ⟨.inr h.1, h.2⟩
      · exact ⟨.inl rfl, h⟩
    · rintro ⟨rfl | h, h'⟩
      · exact .inr ⟨rfl, h'⟩
      · exact .inl ⟨h, h'⟩
  · refine (forMissing_stage hb _ h2 e2).congr fun a b => ?_
    rw [(ord.seqs_perm _).mem_iff]
    simp only [List.mem_filter, decide_eq_true_eq, v1, v2]
    unfold Miss
    simp only [List.mem_cons]
    constructor
    · rintro (h | ⟨rfl, h⟩)
      · exact ⟨.inr h.1, h.2⟩
      · exact ⟨.inl rfl, h⟩
    · rintro ⟨rfl | h, h'⟩
      · exact .inr ⟨rfl, h'⟩
      · exact .inl ⟨h, h'⟩

theorem loop_stage {ord : SetOrder} {db1 db2 : UniDb} {a0 b0 : LGR} : ∀ (l L : List Seq)
    {s s' : LGR × LGR}, (∀ x ∈ l, x ∉ L ∧ In a0 x ∧ In b0 x) → l.Nodup →
    Stage a0 (Miss a0 b0 L) s.1 → Stage b0 (Miss b0 a0 L) s.2 →
    forEach (Harmonize.step ord db1 db2) s l = (s', .ok ()) →
    Stage a0 (Miss a0 b0 (l.reverse ++ L)) s'.1 ∧ Stage b0 (Miss b0 a0 (l.reverse ++ L)) s'.2 := by
  intro l
  induction l with
  | nil =>
    intro L s s' _ _ h1 h2 h
    simp only [forEach, Prod.mk.injEq, and_true] at h
    subst h
    exact ⟨h1, h2⟩
  | cons x l ih =>
    intro L s s' hx hnd h1 h2 h
    unfold forEach at h
    split at h
    · simp at h
    rename_i s1 e1
    obtain ⟨hn, ha, hb⟩ := hx x (by simp)
    obtain ⟨k1, k2⟩ := step_stage hn ha hb h1 h2 e1
    rw [List.nodup_cons] at hnd
    have := ih (x :: L) (fun y hy => ⟨?_, (hx y (by simp [hy])).2⟩) hnd.2 k1 k2 h
    · simpa [List.append_assoc] using this
    · rw [List.mem_cons, not_or]
      refine ⟨?_, (hx y (by simp [hy])).1⟩
      rintro rfl
      exact hnd.1 hy

/-! ### From the loops to the result -/

/-- No entry is a range member. -/
def Plain (g : LGR) : Prop := ∀ k c, g.rep.lookup k = some c → c.range = none

theorem stage_graph {db : UniDb} {n : Nat} {a0 b0 g p : LGR} {L : List Seq}
    (hL : ∀ x, x ∈ L ↔ In a0 x ∧ In b0 x) (hs : Stage a0 (Miss a0 b0 L) g)
    (hp : populate db n g = some (p, .ok ())) : graph p = (graph a0).harm (graph b0) := by
  obtain ⟨hi, he⟩ := C29.populate_exact_partial db n g p hs.wf hp
  have pairs : ∀ x y, Pair g x y ↔ Pair a0 x y ∨ (x ≠ y ∧ In a0 x ∧ In b0 x ∧ Pair b0 x y) ∨
      (x = y ∧ ¬ In a0 x ∧ ∃ c, In a0 c ∧ In b0 c ∧ Pair b0 c x ∧ ¬ Pair a0 c x) := by
    intro x y
    constructor
    · rintro ⟨u, hu, rfl⟩
      rcases (hs.maps x u).1 hu with h | ⟨⟨h1, h2, h3⟩, h4, -⟩ | ⟨h1, ⟨a, h2, h3, h5⟩, h4⟩
      · exact .inl ⟨u, h, rfl⟩
      · exact .inr (.inl ⟨h4, ((hL x).1 h1).1, ((hL x).1 h1).2, h2⟩)
      · exact .inr (.inr ⟨by rw [h4], h1, a, ((hL a).1 h2).1, ((hL a).1 h2).2, h3, h5⟩)
    · rintro (⟨u, hu, rfl⟩ | ⟨h1, h2, h3, h4⟩ | ⟨rfl, h1, c, h2, h3, h4, h5⟩)
      · exact ⟨u, (hs.maps x u).2 (.inl hu), rfl⟩
      · by_cases hq : Pair a0 x y
        · obtain ⟨u, hu, rfl⟩ := hq
          exact ⟨u, (hs.maps x u).2 (.inl hu), rfl⟩
        · exact ⟨⟨y, some "blocked", none, none, none, []⟩,
            (hs.maps x _).2 (.inr (.inl ⟨⟨(hL x).2 ⟨h2, h3⟩, h4, hq⟩, h1, rfl⟩)), rfl⟩
      · exact ⟨⟨x, some "out-of-repertoire", none, none, oor, []⟩,
            (hs.maps x _).2 (.inr (.inr ⟨h1, ⟨c, (hL c).2 ⟨h2, h3⟩, h4, h5⟩, rfl⟩)), rfl⟩
  have merged : ∀ x y, (graph a0).merged (graph b0) x y ↔
      Pair a0 x y ∨ (x ≠ y ∧ In a0 x ∧ In b0 x ∧ Pair b0 x y) := by
    intro x y
    unfold Graph.merged
    simp only [edge_pair, node_in]
    tauto
  have conn : ∀ x y, Relation.EqvGen (Pair g) x y ↔
      Relation.EqvGen ((graph a0).merged (graph b0)) x y := by
    intro x y
    constructor
    · intro h
      induction h with
      | rel x y h =>
        rcases (pairs x y).1 h with h | h | ⟨rfl, -⟩
        · exact .rel _ _ ((merged x y).2 (.inl h))
        · exact .rel _ _ ((merged x y).2 (.inr h))
        · exact .refl _
      | refl x => exact .refl _
      | symm x y _ ih => exact .symm _ _ ih
      | trans x y z _ _ i1 i2 => exact .trans _ _ _ i1 i2
    · intro h
      induction h with
      | rel x y h =>
        rcases (merged x y).1 h with h | h
        · exact .rel _ _ ((pairs x y).2 (.inl h))
        · exact .rel _ _ ((pairs x y).2 (.inr (.inl h)))
      | refl x => exact .refl _
      | symm x y _ ih => exact .symm _ _ ih
      | trans x y z _ _ i1 i2 => exact .trans _ _ _ i1 i2
  apply Graph.ext'
  · intro x
    rw [node_in, hi, hs.inn]
    show _ ↔ In a0 x ∨ ∃ a, (graph a0).merged (graph b0) a x
    simp only [merged, pairs]
    constructor
    · rintro ((h | ⟨a, h1, h2, h3⟩) | ⟨a, h | h | ⟨rfl, -, c, h1, h2, h3, h4⟩⟩)
      · exact .inl h
      · by_cases hax : a = x
        · subst hax; exact .inl ((hL a).1 h1).1
        · exact .inr ⟨a, .inr ⟨hax, ((hL a).1 h1).1, ((hL a).1 h1).2, h2⟩⟩
      · exact .inr ⟨a, .inl h⟩
      · exact .inr ⟨a, .inr h⟩
      · by_cases hca : c = a
        · subst hca; exact .inl h1
        · exact .inr ⟨c, .inr ⟨hca, h1, h2, h3⟩⟩
    · rintro (h | ⟨a, h | h⟩)
      · exact .inl (.inl h)
      · exact .inr ⟨a, .inl h⟩
      · exact .inr ⟨a, .inr (.inl h)⟩
  · intro x y
    rw [edge_pair, he, conn, pairs]
    show _ ↔ (x ≠ y ∧ Relation.EqvGen ((graph a0).merged (graph b0)) x y) ∨
      x = y ∧ ((graph a0).edge x x ∨ ¬ (graph a0).node x ∧
        ∃ c, (graph a0).node c ∧ (graph b0).node c ∧ (graph b0).edge c x ∧ ¬ (graph a0).edge c x)
    simp only [edge_pair, node_in]
    constructor
    · rintro ((h | h | ⟨rfl, h1, h2⟩) | h)
      · by_cases hxy : x = y
        · subst hxy; exact .inr ⟨rfl, .inl h⟩
        · exact .inl ⟨hxy, .rel _ _ ((merged x y).2 (.inl h))⟩
      · exact .inl ⟨h.1, .rel _ _ ((merged x y).2 (.inr h))⟩
      · exact .inr ⟨rfl, .inr ⟨h1, h2⟩⟩
      · exact .inl h
    · rintro (h | ⟨rfl, h | ⟨h1, h2⟩⟩)
      · exact .inr h
      · exact .inl (.inl h)
      · exact .inl (.inr (.inr ⟨rfl, h1, h2⟩))

/-- What is kept of an LGR, with new variants blocked or out of repertoire. -/
structure Keeps (g p : LGR) : Prop where
  refs : p.refs = g.refs
  raise : p.raiseInvalid = g.raiseInvalid
  keep : ∀ x c, g.rep.lookup x = some c → ∃ c', p.rep.lookup x = some c' ∧ c'.attrs = c.attrs
  fresh : ∀ x c, g.rep.lookup x = none → p.rep.lookup x = some c →
    c.attrs = {} ∨ c.attrs = { comment := some "Out-of-repertoire" }
  types : ∀ x v, Maps p x v → v.type = some "blocked" ∨ v.type = some "out-of-repertoire" ∧ v.cp = x ∧
    g.rep.lookup x = none ∨ ∃ u, Maps g x u ∧ u.cp = v.cp ∧ u.type = v.type
  vars : NoEmpty g → NoEmpty p ∧ ∀ x v, Maps g x v → Kept p x v
  own : ∀ u : Variant, In g u.cp → (Maps p u.cp u ↔ Maps g u.cp u)
  new : ∀ u : Variant, ¬ In g u.cp → Maps p u.cp u →
    u = ⟨u.cp, some "out-of-repertoire", none, none, some "Out-of-repertoire", []⟩
  used : ∀ w, Used p w → Used g w

theorem Keeps.trans {g1 g2 g3 : LGR} (h : Keeps g1 g2) (h' : Keeps g2 g3) : Keeps g1 g3 where
  refs := h'.refs.trans h.refs
  raise := h'.raise.trans h.raise
  keep := fun x c hc => by
    obtain ⟨c2, h2, h3⟩ := h.keep x c hc
    obtain ⟨c3, h5, h6⟩ := h'.keep x c2 h2
    exact ⟨c3, h5, h6.trans h3⟩
  fresh := fun x c hn hc => by
    cases h2 : g2.rep.lookup x with
    | none => exact h'.fresh x c h2 hc
    | some c2 =>
      obtain ⟨c3, h5, h6⟩ := h'.keep x c2 h2
      rw [hc] at h5; cases h5
      rw [h6]; exact h.fresh x c2 hn h2
  types := fun x v hv => by
    rcases h'.types x v hv with h1 | ⟨h1, h2, h3⟩ | ⟨u, h1, h2, h3⟩
    · exact .inl h1
    · refine .inr (.inl ⟨h1, h2, ?_⟩)
      cases h4 : g1.rep.lookup x with
      | none => rfl
      | some c =>
        obtain ⟨c', h5, -⟩ := h.keep x c h4
        rw [h3] at h5; cases h5
    · rcases h.types x u h1 with h4 | ⟨h4, h5, h6⟩ | ⟨w, h4, h5, h6⟩
      · exact .inl (h3 ▸ h4)
      · exact .inr (.inl ⟨h3 ▸ h4, h2 ▸ h5, h6⟩)
      · exact .inr (.inr ⟨w, h4, h5.trans h2, h6.trans h3⟩)
  vars := fun hn => by
    obtain ⟨hn2, hk⟩ := h.vars hn
    obtain ⟨hn3, hk'⟩ := h'.vars hn2
    refine ⟨hn3, fun x v hv => ?_⟩
    rcases hk x v hv with h1 | ⟨h1, h2, v', h3, h4, h5, h6, h7, h8⟩
    · exact hk' x v h1
    · rcases hk' x v' h3 with h9 | ⟨h9, h10, -⟩
      · exact .inr ⟨h1, h2, v', h9, h4, h5, h6, h7, h8⟩
      · rw [h9, h10] at h8; simp at h8
  own := fun u hu => by
    obtain ⟨c, hc⟩ := hu
    obtain ⟨c', h1, -⟩ := h.keep u.cp c hc
    exact (h'.own u ⟨c', h1⟩).trans (h.own u ⟨c, hc⟩)
  new := fun u hu hm => by
    by_cases h2 : In g2 u.cp
    · exact h.new u hu ((h'.own u h2).1 hm)
    · exact h'.new u h2 hm
  used := fun w hw => h.used w (h'.used w hw)

theorem grow_keeps {g p : LGR} (h : Grow g p) : Keeps g p where
  refs := h.refs
  raise := h.raise
  keep := fun x c hc => by obtain ⟨c', h1, h2, -⟩ := h.keep x c hc; exact ⟨c', h1, h2⟩
  fresh := fun x c hn hc => .inl (h.fresh x c hn hc).1
  types := fun x v hv => (h.types x v hv).elim .inl (fun h => .inr (.inr h))
  vars := h.vars
  own := fun u _ => h.own u
  new := fun u hu hm => absurd (maps_in ((h.own u).1 hm)) hu
  used := h.used

theorem stage_keeps {g0 g : LGR} {D : Seq → Seq → Prop} (h : Stage g0 D g) : Keeps g0 g where
  refs := h.refs
  raise := h.raise
  keep := fun x c hc => by obtain ⟨c', h1, h2, -⟩ := h.keep x c hc; exact ⟨c', h1, h2⟩
  fresh := fun x c hn hc => .inr (h.fresh x c hn hc).1
  types := fun x v hv => by
    rcases (h.maps x v).1 hv with h1 | ⟨-, -, h1⟩ | ⟨h1, -, h2⟩
    · exact .inr (.inr ⟨v, h1, rfl, rfl⟩)
    · exact .inl (by rw [h1])
    · refine .inr (.inl ⟨by rw [h2], by rw [h2], ?_⟩)
      cases h4 : g0.rep.lookup x with
      | none => rfl
      | some c => exact absurd ⟨c, h4⟩ h1
  vars := fun hn => by
    refine ⟨fun x v hv => ?_, fun x v hv => .inl ((h.maps x v).2 (.inl hv))⟩
    rcases (h.maps x v).1 hv with h1 | ⟨-, -, h1⟩ | ⟨-, -, h1⟩
    · exact hn x v h1
    · rw [h1]; simp
    · rw [h1]; simp
  own := fun u hu => by
    rw [h.maps]
    constructor
    · rintro (h1 | ⟨-, h1, -⟩ | ⟨h1, -⟩)
      · exact h1
      · exact absurd rfl h1
      · exact absurd hu h1
    · exact .inl
  new := fun u hu hm => by
    rcases (h.maps _ u).1 hm with h1 | ⟨-, h1, -⟩ | ⟨-, -, h1⟩
    · exact absurd (maps_in h1) hu
    · exact absurd rfl h1
    · exact h1
  used := fun w ⟨x, v, hv, hw⟩ => by
    rcases (h.maps x v).1 hv with h1 | ⟨-, -, h1⟩ | ⟨-, -, h1⟩
    · exact ⟨x, v, h1, hw⟩
    · rw [h1] at hw; simp at hw
    · rw [h1] at hw; simp at hw

/-- What `rest` gives. -/
theorem rest_spec {ord : SetOrder} {n : Nat} {db1 db2 : UniDb} {g1 g2 : LGR} {h : Harmonized}
    (hw1 : WF g1.rep) (hw2 : WF g2.rep) (hp1 : Plain g1) (hp2 : Plain g2)
    (hr : rest ord n db1 db2 g1 g2 = some (.ok h)) :
    (WF h.g1.rep ∧ Plain h.g1 ∧ Keeps g1 h.g1 ∧ graph h.g1 = (graph g1).harm (graph g2)) ∧
    (WF h.g2.rep ∧ Plain h.g2 ∧ Keeps g2 h.g2 ∧ graph h.g2 = (graph g2).harm (graph g1)) ∧
    (∀ x, x ∈ h.review1 ↔ In g1 x ∧ ¬ In g2 x) ∧ ∀ x, x ∈ h.review2 ↔ In g2 x ∧ ¬ In g1 x := by
  unfold rest at hr
  dsimp only at hr
  split at hr
  · simp at hr
  rename_i a b hl
  split at hr
  · simp at hr
  · simp at hr
  rename_i p1 e1
  split at hr
  · simp at hr
  · simp at hr
  rename_i p2 e2
  simp only [Option.some.injEq, Except.ok.injEq] at hr
  subst hr
  have hL : ∀ x, x ∈ ord.seqs ((cps g2).filter (fun x => x ∈ cps g1)) ↔ In g1 x ∧ In g2 x := by
    intro x
    rw [(ord.seqs_perm _).mem_iff]
    simp only [List.mem_filter, decide_eq_true_eq, C30.mem_cps hw1 hp1, C30.mem_cps hw2 hp2]
    tauto
  have hnd : (ord.seqs ((cps g2).filter (fun x => x ∈ cps g1))).Nodup := by
    rw [(ord.seqs_perm _).nodup_iff]
    exact (C30.nodup_toSet _).filter _
  obtain ⟨s1, s2⟩ := loop_stage _ [] (fun x hx => ⟨by simp, (hL x).1 hx⟩) hnd
    ((Stage.start hw1).congr (by simp [Miss])) ((Stage.start hw2).congr (by simp [Miss])) hl
  have hL1 : ∀ x, x ∈ (ord.seqs ((cps g2).filter (fun x => x ∈ cps g1))).reverse ++ [] ↔
      In g1 x ∧ In g2 x := by simpa using hL
  have hL2 : ∀ x, x ∈ (ord.seqs ((cps g2).filter (fun x => x ∈ cps g1))).reverse ++ [] ↔
      In g2 x ∧ In g1 x := fun x => (hL1 x).trans and_comm
  have side : ∀ {a0 b0 g p : LGR} {db : UniDb} {D : Seq → Seq → Prop}, Stage a0 D g → Plain a0 →
      populate db n g = some (p, .ok ()) → WF p.rep ∧ Plain p ∧ Keeps a0 p := by
    intro a0 b0 g p db D hs hpl hpop
    obtain ⟨w, gr, -⟩ :=
      populate_spec (R := fun _ _ => True) ⟨by simp, by simp⟩ hs.wf (by simp) hpop
    refine ⟨w, fun k c hc => ?_, (stage_keeps hs).trans (grow_keeps gr)⟩
    cases hg : g.rep.lookup k with
    | none => exact (gr.fresh k c hg hc).2
    | some d =>
      obtain ⟨c', h1, -, h2⟩ := gr.keep k d hg
      rw [hc] at h1; cases h1
      rw [h2]
      cases h0 : a0.rep.lookup k with
      | none => exact (hs.fresh k d h0 hg).2
      | some e =>
        obtain ⟨d', h3, -, h4⟩ := hs.keep k e h0
        rw [hg] at h3; cases h3
        rw [h4]; exact hpl k e h0
  obtain ⟨a1, a2, a3⟩ := side (b0 := g2) s1 hp1 e1
  obtain ⟨b1, b2, b3⟩ := side (b0 := g1) s2 hp2 e2
  refine ⟨⟨a1, a2, a3, stage_graph hL1 s1 e1⟩, ⟨b1, b2, b3, stage_graph hL2 s2 e2⟩, ?_, ?_⟩
  · intro x
    simp only [List.mem_filter, decide_eq_true_eq, C30.mem_cps hw1 hp1, C30.mem_cps hw2 hp2]
  · intro x
    simp only [List.mem_filter, decide_eq_true_eq, C30.mem_cps hw1 hp1, C30.mem_cps hw2 hp2]

theorem expand_keeps {db : UniDb} {g e : LGR} (hwf : WF g.rep) (hi : Intact g.rep)
    (h : g.expandRanges db = (e, .ok ())) :
    WF e.rep ∧ Plain e ∧ Keeps g e ∧ graph e = graph g ∧ Intact e.rep := by
  obtain ⟨w, h1, h2, h3⟩ := C30.expanded hwf hi h
  have hrg : e.rep.ranges = [] := by
    obtain ⟨r', k1, k2, -⟩ := C06.expand_ranges_meaning db g hwf hi (by rw [h])
    rw [h] at k1
    simp only at k1
    rw [k1]; exact k2
  have hin : ∀ x, In e x ↔ In g x := by
    intro x; unfold In; rw [h3]
    cases g.rep.lookup x <;> simp
  have hmaps : ∀ x v, Maps e x v ↔ Maps g x v := by
    intro x v; unfold Maps; rw [h3]
    cases g.rep.lookup x <;> simp [C06.noRange, CharObj.getVariants]
  have hpl : Plain e := by
    intro k c hc
    rw [h3] at hc
    cases hg : g.rep.lookup k with
    | none => rw [hg] at hc; cases hc
    | some d => rw [hg] at hc; cases hc; rfl
  refine ⟨w, hpl, ⟨h1, h2, ?_, ?_, ?_, ?_, ?_, ?_, ?_⟩, Graph.ext' hin ?_, ⟨by simp [hrg], ?_, by simp [hrg]⟩⟩
  · intro x c hc
    exact ⟨C06.noRange c, by rw [h3, hc]; rfl, rfl⟩
  · intro x c hn hc
    rw [h3, hn] at hc; cases hc
  · intro x v hv
    exact .inr (.inr ⟨v, (hmaps x v).1 hv, rfl, rfl⟩)
  · intro hn
    exact ⟨fun x v hv => hn x v ((hmaps x v).1 hv), fun x v hv => .inl ((hmaps x v).2 hv)⟩
  · exact fun u _ => hmaps _ u
  · exact fun u hu hm => absurd (maps_in ((hmaps _ u).1 hm)) hu
  · exact fun w ⟨x, v, hv, hw⟩ => ⟨x, v, (hmaps x v).1 hv, hw⟩
  · intro x y
    rw [edge_pair, edge_pair]
    unfold Pair
    simp only [hmaps]
  · intro k c p hc hp
    rw [hpl k c hc] at hp; cases hp

theorem two_spec {ord : SetOrder} {n : Nat} {db1 db2 : UniDb} {g1 g2 : LGR} {h : Harmonized}
    (hw1 : WF g1.rep) (hw2 : WF g2.rep) (hi1 : Intact g1.rep) (hi2 : Intact g2.rep)
    (hr : harmonizeTwo ord n db1 db2 g1 g2 = some (.ok h)) :
    WF h.g1.rep ∧ Plain h.g1 ∧ Keeps g1 h.g1 ∧ graph h.g1 = (graph g1).harm (graph g2) := by
  unfold harmonizeTwo at hr
  split at hr
  · simp at hr
  rename_i e1 x1
  split at hr
  · simp at hr
  rename_i e2 x2
  obtain ⟨w1, p1, k1, q1, -⟩ := expand_keeps hw1 hi1 x1
  obtain ⟨w2, p2, k2, q2, -⟩ := expand_keeps hw2 hi2 x2
  obtain ⟨⟨a1, a2, a3, a4⟩, -⟩ := rest_spec w1 w2 p1 p2 hr
  exact ⟨a1, a2, k1.trans a3, by rw [a4, q1, q2]⟩

/-- The graph of an LGR harmonised with the root zone, if there is one. -/
def withRoot (g : LGR) (rz : Option (UniDb × LGR)) : Graph :=
  match rz with
  | none => graph g
  | some z => (graph g).harm (graph z.2)

/-- Everything the result of `harmonize` is known for. -/
theorem harmonize_spec {ord : SetOrder} {n : Nat} {db1 db2 : UniDb} {g1 g2 : LGR}
    {rz : Option (UniDb × LGR)} {h : Harmonized} (hw1 : WF g1.rep) (hw2 : WF g2.rep)
    (hi1 : Intact g1.rep) (hi2 : Intact g2.rep) (hz : ∀ z ∈ rz, WF z.2.rep ∧ Intact z.2.rep)
    (hr : harmonize ord n db1 db2 g1 g2 rz = some (.ok h)) :
    (WF h.g1.rep ∧ WF h.g2.rep) ∧ Keeps g1 h.g1 ∧ Keeps g2 h.g2 ∧
    graph h.g1 = (withRoot g1 rz).harm (withRoot g2 rz) ∧
    graph h.g2 = (withRoot g2 rz).harm (withRoot g1 rz) ∧
    (∀ x, x ∈ h.review1 ↔ (withRoot g1 rz).node x ∧ ¬ (withRoot g2 rz).node x) ∧
    ∀ x, x ∈ h.review2 ↔ (withRoot g2 rz).node x ∧ ¬ (withRoot g1 rz).node x := by
  unfold harmonize at hr
  split at hr
  · simp at hr
  rename_i e1 x1
  split at hr
  · simp at hr
  rename_i e2 x2
  obtain ⟨w1, p1, k1, q1, j1⟩ := expand_keeps hw1 hi1 x1
  obtain ⟨w2, p2, k2, q2, j2⟩ := expand_keeps hw2 hi2 x2
  cases rz with
  | none =>
    obtain ⟨⟨a1, -, a3, a4⟩, ⟨b1, -, b3, b4⟩, c1, c2⟩ := rest_spec w1 w2 p1 p2 hr
    rw [q1, q2] at a4 b4
    have e1n : ∀ x, In e1 x ↔ (graph g1).node x := fun x => by rw [← q1]; exact Iff.rfl
    have e2n : ∀ x, In e2 x ↔ (graph g2).node x := fun x => by rw [← q2]; exact Iff.rfl
    refine ⟨⟨a1, b1⟩, k1.trans a3, k2.trans b3, a4, b4, fun x => ?_, fun x => ?_⟩
    · rw [c1, e1n, e2n]; exact Iff.rfl
    · rw [c2, e1n, e2n]; exact Iff.rfl
  | some z =>
    obtain ⟨dbz, z⟩ := z
    obtain ⟨hwz, hiz⟩ := hz _ rfl
    dsimp only at hr
    split at hr
    · simp at hr
    · simp at hr
    rename_i h1 y1
    split at hr
    · simp at hr
    · simp at hr
    rename_i h2 y2
    obtain ⟨s1, s2, s3, s4⟩ := two_spec w1 hwz j1 hiz y1
    obtain ⟨t1, t2, t3, t4⟩ := two_spec w2 hwz j2 hiz y2
    rw [q1] at s4
    rw [q2] at t4
    obtain ⟨⟨a1, -, a3, a4⟩, ⟨b1, -, b3, b4⟩, c1, c2⟩ := rest_spec s1 t1 s2 t2 hr
    rw [s4, t4] at a4 b4
    have e1n : ∀ x, In h1.g1 x ↔ (withRoot g1 (some (dbz, z))).node x := fun x => by
      show (graph h1.g1).node x ↔ _
      rw [s4]; exact Iff.rfl
    have e2n : ∀ x, In h2.g1 x ↔ (withRoot g2 (some (dbz, z))).node x := fun x => by
      show (graph h2.g1).node x ↔ _
      rw [t4]; exact Iff.rfl
    refine ⟨⟨a1, b1⟩, k1.trans (s3.trans a3), k2.trans (t3.trans b3), a4, b4, fun x => ?_, fun x => ?_⟩
    · rw [c1, e1n, e2n]
    · rw [c2, e1n, e2n]

/-! ### The theorems -/

section
variable (ord : SetOrder) (n : Nat) (db1 db2 : UniDb) (g1 g2 : LGR) (hw1 : WF g1.rep)
  (hw2 : WF g2.rep) (hi1 : Intact g1.rep) (hi2 : Intact g2.rep) (h : Harmonized)

include hw1 hw2 hi1 hi2

/-- **C46** Without a root zone LGR: code points and variant pairs of both results, exactly (see
`Graph.harm`), and the code points to review: those in one LGR only. -/
theorem harmonize_exact (hr : harmonize ord n db1 db2 g1 g2 none = some (.ok h)) :
    graph h.g1 = (graph g1).harm (graph g2) ∧ graph h.g2 = (graph g2).harm (graph g1) ∧
    (∀ x, x ∈ h.review1 ↔ (graph g1).node x ∧ ¬ (graph g2).node x) ∧
    ∀ x, x ∈ h.review2 ↔ (graph g2).node x ∧ ¬ (graph g1).node x :=
  (harmonize_spec hw1 hw2 hi1 hi2 (by simp) hr).2.2.2

/-- **C46** With a root zone LGR: each LGR is first harmonised with the root zone, then both with each
other. -/
theorem harmonize_exact_root (dbz : UniDb) (z : LGR) (hwz : WF z.rep) (hiz : Intact z.rep)
    (hr : harmonize ord n db1 db2 g1 g2 (some (dbz, z)) = some (.ok h)) :
    let A := (graph g1).harm (graph z)
    let B := (graph g2).harm (graph z)
    graph h.g1 = A.harm B ∧ graph h.g2 = B.harm A ∧
    (∀ x, x ∈ h.review1 ↔ A.node x ∧ ¬ B.node x) ∧ ∀ x, x ∈ h.review2 ↔ B.node x ∧ ¬ A.node x :=
  (harmonize_spec hw1 hw2 hi1 hi2 (by simp [hwz, hiz]) hr).2.2.2

variable (rz : Option (UniDb × LGR)) (hz : ∀ z ∈ rz, WF z.2.rep ∧ Intact z.2.rep)
include hz

/-- **C46** Nothing is lost from either LGR: code points keep their attributes, variants are kept
(an unconditional one may have been given a rule); a new code point has no attribute but the comment
"Out-of-repertoire", a new variant pair is blocked or the identity mapping of a new code point. -/
theorem harmonize_keeps (hr : harmonize ord n db1 db2 g1 g2 rz = some (.ok h)) :
    Keeps g1 h.g1 ∧ Keeps g2 h.g2 :=
  let k := harmonize_spec hw1 hw2 hi1 hi2 hz hr
  ⟨k.2.1, k.2.2.1⟩

/-- **C46** A variant, other than itself, that a code point of both LGRs has in one of them, it has in
both results. -/
theorem harmonize_common (hr : harmonize ord n db1 db2 g1 g2 rz = some (.ok h)) (x y : Seq)
    (hx1 : (graph g1).node x) (hx2 : (graph g2).node x) (hne : x ≠ y)
    (hp : (graph g1).edge x y ∨ (graph g2).edge x y) :
    (graph h.g1).edge x y ∧ (graph h.g2).edge x y := by
  obtain ⟨-, -, -, k1, k2, -⟩ := harmonize_spec hw1 hw2 hi1 hi2 hz hr
  have up : ∀ (g : LGR) x y, (graph g).edge x y → (withRoot g rz).edge x y := by
    intro g x y he
    cases rz with
    | none => exact he
    | some z => exact harm_edge he
  have upn : ∀ (g : LGR) x, (graph g).node x → (withRoot g rz).node x := by
    intro g x he
    cases rz with
    | none => exact he
    | some z => exact .inl he
  rw [k1, k2]
  exact ⟨harm_has (upn _ _ hx1) (upn _ _ hx2) hne (hp.imp (up _ _ _) (up _ _ _)),
    harm_has (upn _ _ hx2) (upn _ _ hx1) hne (hp.symm.imp (up _ _ _) (up _ _ _))⟩

/-- **C46**, partial. When both LGRs are symmetric and transitive, or a root zone LGR is given, a code
point of both results has the same variants in both, other than itself. Missing: LGRs that are not,
see `agree_wrong`. -/
theorem harmonize_agree_partial (hr : harmonize ord n db1 db2 g1 g2 rz = some (.ok h))
    (hc : rz = none → (graph g1).Closed ∧ (graph g2).Closed) (x y : Seq)
    (hx1 : (graph h.g1).node x) (hx2 : (graph h.g2).node x) (hne : x ≠ y) :
    (graph h.g1).edge x y ↔ (graph h.g2).edge x y := by
  obtain ⟨-, -, -, k1, k2, -⟩ := harmonize_spec hw1 hw2 hi1 hi2 hz hr
  have hcl : (withRoot g1 rz).Closed ∧ (withRoot g2 rz).Closed := by
    cases rz with
    | none => exact hc rfl
    | some z =>
      have hn : ∀ (g : LGR) x y, (graph g).edge x y → (graph g).node x := by
        rintro g x y ⟨c, hc, -⟩; exact ⟨c, hc⟩
      exact ⟨harm_closed (hn g1), harm_closed (hn g2)⟩
  rw [k1] at hx1 ⊢
  rw [k2] at hx2 ⊢
  exact harm_agree hcl.1 hcl.2 hne hx1 hx2

/-- **C46** Both results are symmetric and transitive, whatever the LGRs were. -/
theorem harmonize_closed (hr : harmonize ord n db1 db2 g1 g2 rz = some (.ok h)) :
    (graph h.g1).Closed ∧ (graph h.g2).Closed := by
  obtain ⟨-, -, -, k1, k2, -⟩ := harmonize_spec hw1 hw2 hi1 hi2 hz hr
  have hn : ∀ (g : LGR) x y, (withRoot g rz).edge x y → (withRoot g rz).node x := by
    have hg : ∀ (g : LGR) x y, (graph g).edge x y → (graph g).node x := by
      rintro g x y ⟨c, hc, -⟩; exact ⟨c, hc⟩
    intro g
    cases rz with
    | none => exact hg g
    | some z => exact (harm_closed (hg g)).node
  rw [k1, k2]
  exact ⟨harm_closed (hn g1), harm_closed (hn g2)⟩

end

/-- **C46** `harmonize` terminates: there is a number of iterations from which on the outcome does not
change. -/
theorem harmonize_terminates (ord : SetOrder) (db1 db2 : UniDb) (g1 g2 : LGR)
    (rz : Option (UniDb × LGR)) (hw1 : WF g1.rep) (hw2 : WF g2.rep) (hi1 : Intact g1.rep)
    (hi2 : Intact g2.rep) (hz : ∀ z ∈ rz, WF z.2.rep ∧ Intact z.2.rep) :
    ∃ n out, ∀ m, n ≤ m → harmonize ord m db1 db2 g1 g2 rz = some out := by
  have hrest : ∀ {db1 db2 : UniDb} {g1 g2 : LGR}, WF g1.rep → WF g2.rep → Plain g1 → Plain g2 →
      ∃ n out, ∀ m, n ≤ m → rest ord m db1 db2 g1 g2 = some out := by
    intro db1 db2 g1 g2 hw1 hw2 hp1 hp2
    unfold rest
    dsimp only
    generalize hl : forEach (Harmonize.step ord db1 db2) (g1, g2) _ = r
    obtain ⟨⟨a, b⟩, r⟩ := r
    cases r with
    | error e => exact ⟨0, _, fun _ _ => rfl⟩
    | ok u =>
      have hL : ∀ x, x ∈ ord.seqs ((cps g2).filter (fun x => x ∈ cps g1)) ↔ In g1 x ∧ In g2 x := by
        intro x
        rw [(ord.seqs_perm _).mem_iff]
        simp only [List.mem_filter, decide_eq_true_eq, C30.mem_cps hw1 hp1, C30.mem_cps hw2 hp2]
        tauto
      have hnd : (ord.seqs ((cps g2).filter (fun x => x ∈ cps g1))).Nodup := by
        rw [(ord.seqs_perm _).nodup_iff]
        exact (C30.nodup_toSet _).filter _
      obtain ⟨s1, s2⟩ := loop_stage _ [] (fun x hx => ⟨by simp, (hL x).1 hx⟩) hnd
        ((Stage.start hw1).congr (by simp [Miss])) ((Stage.start hw2).congr (by simp [Miss])) hl
      obtain ⟨n1, ⟨p1, o1⟩, e1⟩ := populate_terminates db1 a s1.wf
      obtain ⟨n2, ⟨p2, o2⟩, e2⟩ := populate_terminates db2 b s2.wf
      dsimp only
      cases o1 with
      | error e => exact ⟨n1, _, fun m hm => by rw [e1 m hm]⟩
      | ok u =>
        cases o2 with
        | error e =>
          exact ⟨max n1 n2, .error e, fun m hm => by
            rw [e1 m (le_trans (le_max_left _ _) hm)]
            dsimp only
            rw [e2 m (le_trans (le_max_right _ _) hm)]⟩
        | ok u =>
          refine ⟨max n1 n2, .ok ⟨p1, p2, (cps g1).filter (fun x => x ∉ cps g2),
            (cps g2).filter (fun x => x ∉ cps g1)⟩, fun m hm => ?_⟩
          rw [e1 m (le_trans (le_max_left _ _) hm)]
          dsimp only
          rw [e2 m (le_trans (le_max_right _ _) hm)]
  have htwo : ∀ {db1 db2 : UniDb} {g1 g2 : LGR}, WF g1.rep → WF g2.rep → Intact g1.rep →
      Intact g2.rep → ∃ n out, ∀ m, n ≤ m → harmonizeTwo ord m db1 db2 g1 g2 = some out := by
    intro db1 db2 g1 g2 hw1 hw2 hi1 hi2
    unfold harmonizeTwo
    generalize x1 : g1.expandRanges db1 = r1
    obtain ⟨e1, r1⟩ := r1
    cases r1 with
    | error e => exact ⟨0, _, fun _ _ => rfl⟩
    | ok u =>
      dsimp only
      generalize x2 : g2.expandRanges db2 = r2
      obtain ⟨e2, r2⟩ := r2
      cases r2 with
      | error e => exact ⟨0, _, fun _ _ => rfl⟩
      | ok u =>
        obtain ⟨w1, p1, -⟩ := expand_keeps hw1 hi1 x1
        obtain ⟨w2, p2, -⟩ := expand_keeps hw2 hi2 x2
        exact hrest w1 w2 p1 p2
  unfold harmonize
  generalize x1 : g1.expandRanges db1 = r1
  obtain ⟨e1, r1⟩ := r1
  cases r1 with
  | error e => exact ⟨0, _, fun _ _ => rfl⟩
  | ok u =>
    dsimp only
    generalize x2 : g2.expandRanges db2 = r2
    obtain ⟨e2, r2⟩ := r2
    cases r2 with
    | error e => exact ⟨0, _, fun _ _ => rfl⟩
    | ok u =>
      obtain ⟨w1, p1, -, -, j1⟩ := expand_keeps hw1 hi1 x1
      obtain ⟨w2, p2, -, -, j2⟩ := expand_keeps hw2 hi2 x2
      cases rz with
      | none => exact hrest w1 w2 p1 p2
      | some z =>
        obtain ⟨dbz, z⟩ := z
        obtain ⟨hwz, hiz⟩ := hz _ rfl
        obtain ⟨n1, o1, y1⟩ := htwo (db1 := db1) (db2 := dbz) w1 hwz j1 hiz
        obtain ⟨n2, o2, y2⟩ := htwo (db1 := db2) (db2 := dbz) w2 hwz j2 hiz
        dsimp only
        cases o1 with
        | error e => exact ⟨n1, .error e, fun m hm => by rw [y1 m hm]⟩
        | ok h1 =>
          cases o2 with
          | error e =>
            exact ⟨max n1 n2, .error e, fun m hm => by
              rw [y1 m (le_trans (le_max_left _ _) hm)]
              dsimp only
              rw [y2 m (le_trans (le_max_right _ _) hm)]⟩
          | ok h2 =>
            obtain ⟨s1, s2, -⟩ := two_spec w1 hwz j1 hiz (y1 n1 le_rfl)
            obtain ⟨t1, t2, -⟩ := two_spec w2 hwz j2 hiz (y2 n2 le_rfl)
            obtain ⟨n3, o3, y3⟩ := hrest (db1 := db1) (db2 := db2) s1 t1 s2 t2
            refine ⟨max (max n1 n2) n3, o3, fun m hm => ?_⟩
            rw [y1 m (le_trans (le_trans (le_max_left _ _) (le_max_left _ _)) hm)]
            dsimp only
            rw [y2 m (le_trans (le_trans (le_max_right _ _) (le_max_left _ _)) hm)]
            exact y3 m (le_trans (le_max_right _ _) hm)

/-! ### Examples and violations -/

/-- `a` has the variant `b`, each way. -/
def leftOps : List (Ctx × LGR.Op) :=
  [(C27.ctx, .addCp (.int 97) {}), (C27.ctx, .addCp (.int 98) {}),
   (C27.ctx, .addVariant (.int 97) (.int 98) (some "blocked") {}),
   (C27.ctx, .addVariant (.int 98) (.int 97) (some "blocked") {})]

/-- `b` has the variant `d`, each way. -/
def rightOps : List (Ctx × LGR.Op) :=
  [(C27.ctx, .addCp (.int 98) {}), (C27.ctx, .addCp (.int 100) {}),
   (C27.ctx, .addVariant (.int 98) (.int 100) (some "allocatable") {}),
   (C27.ctx, .addVariant (.int 100) (.int 98) (some "allocatable") {})]

/-- `a` has the variant `b`, which has the variant `c`. -/
def chainOps : List (Ctx × LGR.Op) :=
  [(C27.ctx, .addCp (.int 97) {}), (C27.ctx, .addCp (.int 98) {}), (C27.ctx, .addCp (.int 99) {}),
   (C27.ctx, .addVariant (.int 97) (.int 98) (some "blocked") {}),
   (C27.ctx, .addVariant (.int 98) (.int 99) (some "blocked") {})]

/-- `a` alone. -/
def aloneOps : List (Ctx × LGR.Op) := [(C27.ctx, .addCp (.int 97) {})]

/-- Sets iterated in order of insertion. -/
def ord0 : SetOrder := ⟨id, id, id, id, fun _ => .refl _, fun _ => .refl _, fun _ => .refl _,
  fun _ => .refl _⟩

/-- The pairs of both results. -/
def pairsOf (o : Option (Except Err Harmonized)) :
    Option (List (Seq × List Seq) × List (Seq × List Seq)) :=
  match o with
  | some (.ok h) =>
    some (h.g1.rep.allChars.map (fun c => (c.cp, c.getVariants.map Variant.cp)),
      h.g2.rep.allChars.map (fun c => (c.cp, c.getVariants.map Variant.cp)))
  | _ => none

/-- `harmonize` returns on two symmetric and transitive LGRs with `b` in common; `a`, `b` and `d` become
variants of each other in both, `d` being new in the first and `a` in the second. -/
example :
    pairsOf (harmonize ord0 20 none none (LGR.run {} leftOps) (LGR.run {} rightOps) none) =
      some ([([97], [[98], [100]]), ([98], [[97], [100]]), ([100], [[97], [98], [100]])],
        [([98], [[97], [100]]), ([100], [[97], [98]]), ([97], [[97], [98], [100]])]) ∧
    WF (LGR.run {} leftOps).rep ∧ WF (LGR.run {} rightOps).rep ∧
    Intact (LGR.run {} leftOps).rep ∧ Intact (LGR.run {} rightOps).rep :=
  ⟨by decide +kernel, (run_wf _).1, (run_wf _).1,
    C30.intact_of_all (run_wf _).1 rfl (by decide +kernel),
    C30.intact_of_all (run_wf _).1 rfl (by decide +kernel)⟩

/-- The graph of an LGR in terms of the list of its entries. -/
theorem edge_all {g : LGR} (hwf : WF g.rep) (x y : Seq) : (graph g).edge x y ↔
    ∃ c ∈ g.rep.allChars, c.cp = x ∧ y ∈ c.getVariants.map Variant.cp := by
  constructor
  · rintro ⟨c, hc, v, hv, rfl⟩
    have := lookup_cp hc
    exact ⟨c, (mem_allChars hwf c).2 (by rw [this]; exact hc), this, List.mem_map.2 ⟨v, hv, rfl⟩⟩
  · rintro ⟨c, hc, rfl, hy⟩
    obtain ⟨v, hv, rfl⟩ := List.mem_map.1 hy
    exact ⟨c, (mem_allChars hwf c).1 hc, v, hv, rfl⟩

/-- **C46**, violated in general: one LGR has `a` with the variant `b`, which has the variant `c`; the
other has `a` only. Both results have `a`, but only the first gives it the variant `c`. -/
theorem agree_wrong :
    ∃ (g1 g2 : LGR) (h : Harmonized), WF g1.rep ∧ WF g2.rep ∧ Intact g1.rep ∧ Intact g2.rep ∧
      (graph g1).node [97] ∧ (graph g2).node [97] ∧
      harmonize ord0 20 none none g1 g2 none = some (.ok h) ∧
      (graph h.g1).edge [97] [99] ∧ ¬ (graph h.g2).edge [97] [99] := by
  have hw1 : WF (LGR.run {} chainOps).rep := (run_wf _).1
  have hw2 : WF (LGR.run {} aloneOps).rep := (run_wf _).1
  have hi1 := C30.intact_of_all hw1 rfl (by decide +kernel)
  have hi2 := C30.intact_of_all hw2 rfl (by decide +kernel)
  have hp : pairsOf (harmonize ord0 20 none none (LGR.run {} chainOps) (LGR.run {} aloneOps) none) =
      some ([([97], [[98], [99]]), ([98], [[97], [99]]), ([99], [[97], [98]])],
        [([97], [[98]]), ([98], [[97], [98]])]) := by decide +kernel
  generalize hh : harmonize ord0 20 none none (LGR.run {} chainOps) (LGR.run {} aloneOps) none = o at hp
  match o, hp with
  | some (.ok h), hp =>
    simp only [pairsOf, Option.some.injEq, Prod.mk.injEq] at hp
    obtain ⟨p1, p2⟩ := hp
    have has : ∀ (g : LGR), (∃ p ∈ g.rep.allChars.map (fun c => (c.cp, c.getVariants.map Variant.cp)),
        p.1 = [97] ∧ [99] ∈ p.2) ↔
        ∃ c ∈ g.rep.allChars, c.cp = [97] ∧ [99] ∈ c.getVariants.map Variant.cp := by
      intro g
      constructor
      · rintro ⟨p, hp, h1, h2⟩
        obtain ⟨c, hc, rfl⟩ := List.mem_map.1 hp
        exact ⟨c, hc, h1, h2⟩
      · rintro ⟨c, hc, h1, h2⟩; exact ⟨_, List.mem_map.2 ⟨c, hc, rfl⟩, h1, h2⟩
    obtain ⟨x1, x2, x3⟩ : WF h.g1.rep ∧ WF h.g2.rep ∧ True := by
      have hr := hh
      unfold harmonize at hr
      split at hr
      · simp at hr
      rename_i e1 y1
      split at hr
      · simp at hr
      rename_i e2 y2
      obtain ⟨w1, q1, -⟩ := expand_keeps hw1 hi1 y1
      obtain ⟨w2, q2, -⟩ := expand_keeps hw2 hi2 y2
      obtain ⟨⟨a1, -⟩, ⟨b1, -⟩, -⟩ := rest_spec w1 w2 q1 q2 hr
      exact ⟨a1, b1, trivial⟩
    refine ⟨_, _, h, hw1, hw2, hi1, hi2, ?_, ?_, hh, ?_, ?_⟩
    · exact Option.isSome_iff_exists.1 (by decide +kernel)
    · exact Option.isSome_iff_exists.1 (by decide +kernel)
    · rw [edge_all x1, ← has, p1]
      decide
    · rw [edge_all x2, ← has, p2]
      decide

end Lgr.Props.C46

namespace Lgr.Props.C92
open Lgr Harmonize

/-- **C92**, partial. The comment of the version of a harmonised LGR says so when it had none.
Missing: an existing comment; see `comment_wrong`. -/
theorem comment_partial (c : Option String) (h : c = none ∨ c = some "") :
    harmonizedComment c = some " - Harmonized" := by
  rcases h with rfl | rfl <;> rfl

/-- **C92**, violated in general: a non-empty comment is left as it is. -/
theorem comment_wrong (c : String) (h : c ≠ "") : harmonizedComment (some c) = some c := by
  unfold harmonizedComment
  rw [if_pos]
  simp [truthy, h]

end Lgr.Props.C92
