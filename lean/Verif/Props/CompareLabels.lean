import Verif.Props.Compare
import Verif.Props.Eligibility

/-!
# C132: labels of a union and of an intersection
-/

namespace Lgr.Props.C132
open Lgr LGR Repertoire C50 C26 Compare C30 C14

/-! ## Specification -/

/-- The label is eligible (`test_label_eligible` without actions: `_test_preliminary_eligibility`). -/
def Accepts (env : Env) (g : LGR) (label : Seq) : Prop :=
  ∃ p, env.prelim g.rep label = .ok p ∧ p.ok = true

/-- The label is a concatenation of sequences with property `P`. -/
def Made (P : Seq → Prop) (label : Seq) : Prop := ∃ ks : List Seq, ks.flatten = label ∧ ∀ k ∈ ks, P k

/-- None of the sequences is the beginning of another one. -/
def Free (P : Seq → Prop) : Prop := ∀ k l, P k → P l → k <+: l → k = l

/-- An entry of the LGR is conditioned by rule `w`. -/
def Uses (g : LGR) (k : Seq) (w : String) : Prop :=
  ∃ c, g.rep.lookup k = some c ∧ (c.attrs.whenR = some w ∨ c.attrs.notWhenR = some w)

/-! ## Lemmas -/

theorem loop_defined {env : Env} {r : Repertoire} (h : WF r) (label : Seq)
    (hd : ∀ c, r.lookup c.cp = some c → ∀ i, ∃ b, env.testChar c label i = .ok b) (fuel : Nat) :
    ∀ (i : Nat) (rest : Seq), ∃ p, env.prelimLoop r label fuel i rest = .ok p := by
  induction fuel with
  | zero => intro i rest; cases rest <;> exact ⟨_, rfl⟩
  | succ fuel ih =>
    intro i rest
    cases rest with
    | nil => exact ⟨_, rfl⟩
    | cons x xs =>
      unfold Env.prelimLoop
      obtain ⟨q, hq⟩ := ih (i + 1) xs
      cases hc : r.charsFromPrefix x with
      | error e => simp [hq]
      | ok cs =>
        obtain ⟨hmem, -, -⟩ := charsFromPrefix_ok h hc
        obtain ⟨-, -, hp3⟩ := Env.pickChar_spec (env := env) (label := label) (i := i) (xs := xs)
          cs (fun c hc => ((hmem c).1 hc).2)
        cases hk : env.pickChar label i (x :: xs) cs with
        | error e =>
          obtain ⟨d, hdm, _, hde⟩ := hp3 e hk
          obtain ⟨b, hb⟩ := hd d (getChar_ok.1 ((hmem d).1 hdm).1) i
          rw [hb] at hde; cases hde
        | ok o =>
          obtain ⟨o, pend⟩ := o
          cases o with
          | none => simp [hk, hq]
          | some c =>
            obtain ⟨q2, hq2⟩ := ih (i + c.len) ((x :: xs).drop c.len)
            simp only [hk, hq2]; exact ⟨_, rfl⟩

/-- The test answers when the rules of the entries do. -/
theorem answers {env : Env} {g : LGR} (h : WF g.rep) (label : Seq)
    (hd : ∀ k w, Uses g k w → ∀ a i, ∃ b, env.ruleMatches w label a i = .ok b) :
    ∃ p, env.prelim g.rep label = .ok p := by
  refine loop_defined h label (fun c hc i => ?_) _ _ _
  unfold Env.testChar Env.testContext
  cases hw : c.attrs.whenR with
  | some w => exact hd c.cp w ⟨c, hc, .inl hw⟩ _ i
  | none =>
    cases hn : c.attrs.notWhenR with
    | none => exact ⟨_, rfl⟩
    | some n =>
      obtain ⟨b, hb⟩ := hd c.cp n ⟨c, hc, .inr hn⟩ c.cp i
      exact ⟨!b, by simp [hb]⟩

theorem prefixFree {g : LGR} {P : Seq → Prop} (hP : Free P) (h : ∀ k, In g k → P k) :
    PrefixFree g.rep := by
  intro c d hc hd hp
  have := hP _ _ (h _ ⟨c, getChar_ok.1 hc⟩) (h _ ⟨d, getChar_ok.1 hd⟩) hp
  rw [this, hd] at hc
  simpa using hc.symm

theorem accepts_seg {env : Env} {g : LGR} (h : WF g.rep) {label : Seq} (ha : Accepts env g label) :
    ∃ cs, Segmentation env g.rep label cs := by
  obtain ⟨p, hp, hok⟩ := ha
  exact ⟨_, (C13.accepted_is_segmentation h hp hok).1⟩

theorem seg_accepts {env : Env} {g : LGR} (h : WF g.rep) {label : Seq}
    (hd : ∀ k w, Uses g k w → ∀ a i, ∃ b, env.ruleMatches w label a i = .ok b)
    (hpf : PrefixFree g.rep) {cs : List CharObj} (hs : Segmentation env g.rep label cs) :
    Accepts env g label := by
  obtain ⟨p, hp⟩ := answers h label hd
  exact ⟨p, hp, (accepts_iff_segmentable_partial h hpf hp).2 ⟨cs, hs⟩⟩

theorem seg_made {env : Env} {r : Repertoire} {label : Seq} {cs : List CharObj}
    (hs : Segmentation env r label cs) :
    (cs.map CharObj.cp).flatten = label ∧ ∀ k ∈ cs.map CharObj.cp, ∃ c, r.lookup k = some c := by
  refine ⟨by rw [← List.flatMap_def]; exact hs.concat, ?_⟩
  intro k hk
  obtain ⟨c, hc, rfl⟩ := List.mem_map.1 hk
  exact ⟨c, getChar_ok.1 (hs.stored c hc)⟩

/-- A segmentation gives one in another LGR which has the same entries where they are used, in contexts
at most as strict. -/
theorem seg_transfer {env env' : Env} {r r' : Repertoire} {label : Seq} {cs : List CharObj}
    (hs : Segmentation env r label cs)
    (h : ∀ c ∈ cs, ∃ d, r'.lookup c.cp = some d ∧
      ∀ o, CharCtx env label o c → CharCtx env' label o d) :
    ∃ ds, Segmentation env' r' label ds := by
  let f : CharObj → CharObj := fun c => (r'.lookup c.cp).getD c
  have hf : ∀ c ∈ cs, (f c).cp = c.cp ∧ r'.lookup c.cp = some (f c) ∧
      ∀ o, CharCtx env label o c → CharCtx env' label o (f c) := by
    intro c hc
    obtain ⟨d, hd, hx⟩ := h c hc
    have : f c = d := by simp [f, hd]
    rw [this]
    exact ⟨lookup_cp hd, hd, hx⟩
  have hcp : ∀ l : List CharObj, (∀ c ∈ l, c ∈ cs) → (l.map f).flatMap CharObj.cp = l.flatMap CharObj.cp := by
    intro l hl
    induction l with
    | nil => rfl
    | cons c l ih =>
      rw [List.map_cons, List.flatMap_cons, List.flatMap_cons, (hf c (hl c (by simp))).1,
        ih (fun d hd => hl d (by simp [hd]))]
  refine ⟨cs.map f, ⟨by rw [hcp cs (fun _ h => h), hs.concat], ?_, ?_⟩⟩
  · intro d hd
    obtain ⟨c, hc, rfl⟩ := List.mem_map.1 hd
    rw [(hf c hc).1]
    exact getChar_ok.2 (hf c hc).2.1
  · intro pre d post he
    obtain ⟨l1, l2, e1, e2, e3⟩ := List.map_eq_append_iff.1 he
    obtain ⟨c, l3, rfl, rfl, e5⟩ := List.map_eq_cons_iff.1 e3
    subst e2
    have hsub : ∀ x ∈ l1, x ∈ cs := fun x hx => by rw [e1]; simp [hx]
    rw [hcp l1 hsub]
    exact (hf c (by rw [e1]; simp)).2.2 _ (hs.context l1 c l3 e1)

/-- A label is written in one way with sequences none of which begins another one. -/
theorem made_unique {P : Seq → Prop} (hP : Free P) (h0 : ¬ P []) : ∀ (ks ls : List Seq),
    (∀ k ∈ ks, P k) → (∀ l ∈ ls, P l) → ks.flatten = ls.flatten → ks = ls
  | [], [], _, _, _ => rfl
  | [], l :: ls, _, hl, he => by
    have : l = [] := by simp at he; exact he.1
    exact absurd (this ▸ hl l (by simp)) h0
  | k :: ks, [], hk, _, he => by
    have : k = [] := by simp at he; exact he.1
    exact absurd (this ▸ hk k (by simp)) h0
  | k :: ks, l :: ls, hk, hl, he => by
    rw [List.flatten_cons, List.flatten_cons] at he
    have hkl : k = l := by
      rcases List.append_eq_append_iff.1 he with ⟨t, h1, -⟩ | ⟨t, h1, -⟩
      · exact hP k l (hk k (by simp)) (hl l (by simp)) ⟨t, h1.symm⟩
      · exact (hP l k (hl l (by simp)) (hk k (by simp)) ⟨t, h1.symm⟩).symm
    subst hkl
    rw [made_unique hP h0 ks ls (fun x h => hk x (by simp [h])) (fun x h => hl x (by simp [h]))
      (List.append_cancel_left he)]

theorem not_in_nil (g : LGR) : ¬ In g [] := by rintro ⟨c, hc⟩; simp [lookup] at hc

theorem ctx_none {env : Env} {label : Seq} {o : Nat} {c : CharObj}
    (h : c.attrs.whenR = none ∧ c.attrs.notWhenR = none) : CharCtx env label o c := by
  simp [CharCtx, CtxHolds, h]

/-- The context of an entry depends on the rules it names only. -/
theorem ctx_congr {env env' : Env} {label : Seq} {o : Nat} {c d : CharObj} (hcp : d.cp = c.cp)
    (hw : d.attrs.whenR = c.attrs.whenR) (hn : d.attrs.notWhenR = c.attrs.notWhenR)
    (he : ∀ w, c.attrs.whenR = some w ∨ c.attrs.notWhenR = some w →
      env'.ruleMatches w label c.cp o = env.ruleMatches w label c.cp o)
    (h : CharCtx env label o c) : CharCtx env' label o d := by
  unfold CharCtx CtxHolds at *
  rw [hcp, hw, hn]
  refine ⟨fun w hw' => by rw [he w (.inl hw')]; exact h.1 w hw', fun h0 n hn' => ?_⟩
  rw [he n (.inr hn')]
  exact h.2 h0 n hn'

/-! ## The intersection -/

section inter
variable (ord : SetOrder) (db1 db2 : UniDb) (g1 g2 g : LGR) (hw1 : WF g1.rep) (hw2 : WF g2.rep)
  (hi1 : Intact g1.rep) (hi2 : Intact g2.rep) (h : (intersectLgrs ord db1 db2 g1 g2).2 = .ok g)
include hw1 hw2 hi1 hi2 h

/-- Entries of the intersection have no context rule. -/
theorem inter_no_rules (k : Seq) (w : String) : ¬ Uses g k w := by
  obtain ⟨-, a, b, -⟩ := C31.intersect_exact ord db1 db2 g1 g2 g hw1 hw2 hi1 hi2 h
  rintro ⟨c, hc, hcw⟩
  cases k1 : g1.rep.lookup k with
  | none => rw [a k (.inl k1)] at hc; cases hc
  | some c1 =>
    cases k2 : g2.rep.lookup k with
    | none => rw [a k (.inr k2)] at hc; cases hc
    | some c2 =>
      obtain ⟨d, hd, hs⟩ := b k c1 c2 k1 k2
      rw [hd] at hc
      simp only [Option.some.injEq] at hc
      subst hc
      simp [hs.norules.1, hs.norules.2] at hcw

/-- **C132** A label accepted by the intersection is made of entries which both LGRs have. The test of
a label against the intersection never raises. -/
theorem inter_made (env : Env) (label : Seq) :
    (∃ p, env.prelim g.rep label = .ok p) ∧
    (Accepts env g label → Made (fun k => In g1 k ∧ In g2 k) label) := by
  obtain ⟨hwf, -⟩ := C31.intersect_exact ord db1 db2 g1 g2 g hw1 hw2 hi1 hi2 h
  refine ⟨answers hwf label (fun k w hu => absurd hu (inter_no_rules ord db1 db2 g1 g2 g hw1 hw2 hi1 hi2 h k w)), ?_⟩
  intro ha
  obtain ⟨cs, hs⟩ := accepts_seg hwf ha
  obtain ⟨h1, h2⟩ := seg_made hs
  exact ⟨_, h1, fun k hk =>
    (C31.intersect_members ord db1 db2 g1 g2 g hw1 hw2 hi1 hi2 h k).1.1 (h2 k hk)⟩

/-- **C132** A label all code points of which are entries of both LGRs is accepted by the intersection,
whatever rules these entries are subject to in the two LGRs. -/
theorem inter_ignores_rules (env : Env) (label : Seq) (hl : ∀ x ∈ label, In g1 [x] ∧ In g2 [x]) :
    Accepts env g label := by
  obtain ⟨hwf, -, b, -⟩ := C31.intersect_exact ord db1 db2 g1 g2 g hw1 hw2 hi1 hi2 h
  obtain ⟨⟨p, hp⟩, -⟩ := inter_made ord db1 db2 g1 g2 g hw1 hw2 hi1 hi2 h env label
  refine ⟨p, hp, accepts_plain_labels_partial hwf hp (fun x hx => ?_)⟩
  obtain ⟨⟨c1, k1⟩, c2, k2⟩ := hl x hx
  obtain ⟨c, hc, hs⟩ := b [x] c1 c2 k1 k2
  exact ⟨c, getChar_ok.2 hc, hs.norules⟩

/-- **C132** The intersection accepts no label which one of the LGRs rejects, when no entry of these
LGRs begins another entry of the same LGR and no entry which both LGRs have is subject to rules.
Missing for the full property: the other LGRs, for which it is false (`accepts_rejected_wrong`,
`inter_overlap_wrong`). -/
theorem inter_sound_partial (env env1 env2 : Env) (label : Seq) (hp1 : Free (In g1)) (hp2 : Free (In g2))
    (hr1 : ∀ k w, In g2 k → ¬ Uses g1 k w) (hr2 : ∀ k w, In g1 k → ¬ Uses g2 k w)
    (hd1 : ∀ k w, Uses g1 k w → ∀ a i, ∃ b, env1.ruleMatches w label a i = .ok b)
    (hd2 : ∀ k w, Uses g2 k w → ∀ a i, ∃ b, env2.ruleMatches w label a i = .ok b)
    (ha : Accepts env g label) : Accepts env1 g1 label ∧ Accepts env2 g2 label := by
  obtain ⟨hwf, -⟩ := C31.intersect_exact ord db1 db2 g1 g2 g hw1 hw2 hi1 hi2 h
  obtain ⟨cs, hs⟩ := accepts_seg hwf ha
  have hin : ∀ c ∈ cs, In g1 c.cp ∧ In g2 c.cp := fun c hc =>
    (C31.intersect_members ord db1 db2 g1 g2 g hw1 hw2 hi1 hi2 h c.cp).1.1
      ⟨c, getChar_ok.1 (hs.stored c hc)⟩
  have hno : ∀ (g' : LGR) (d : CharObj) (k : Seq), g'.rep.lookup k = some d → (∀ w, ¬ Uses g' k w) →
      d.attrs.whenR = none ∧ d.attrs.notWhenR = none := by
    intro g' d k hd hu
    refine ⟨?_, ?_⟩
    · cases hw : d.attrs.whenR with
      | none => rfl
      | some w => exact absurd ⟨d, hd, .inl hw⟩ (hu w)
    · cases hw : d.attrs.notWhenR with
      | none => rfl
      | some w => exact absurd ⟨d, hd, .inr hw⟩ (hu w)
  constructor
  · obtain ⟨ds, hds⟩ := seg_transfer (env' := env1) (r' := g1.rep) hs (fun c hc => by
      obtain ⟨⟨c1, k1⟩, h2⟩ := hin c hc
      exact ⟨c1, k1, fun o _ => ctx_none (hno g1 c1 _ k1 (fun w => hr1 _ w h2))⟩)
    exact seg_accepts hw1 hd1 (prefixFree hp1 (fun _ h => h)) hds
  · obtain ⟨ds, hds⟩ := seg_transfer (env' := env2) (r' := g2.rep) hs (fun c hc => by
      obtain ⟨h1, ⟨c2, k2⟩⟩ := hin c hc
      exact ⟨c2, k2, fun o _ => ctx_none (hno g2 c2 _ k2 (fun w => hr2 _ w h1))⟩)
    exact seg_accepts hw2 hd2 (prefixFree hp2 (fun _ h => h)) hds

/-- **C132** The intersection accepts every label which both LGRs accept, when no entry of one of them
begins another entry of one of them. -/
theorem inter_complete_partial (env env1 env2 : Env) (label : Seq) (hp : Free (fun k => In g1 k ∨ In g2 k))
    (h1 : Accepts env1 g1 label) (h2 : Accepts env2 g2 label) : Accepts env g label := by
  obtain ⟨hwf, -, b, -⟩ := C31.intersect_exact ord db1 db2 g1 g2 g hw1 hw2 hi1 hi2 h
  have hm := fun k => (C31.intersect_members ord db1 db2 g1 g2 g hw1 hw2 hi1 hi2 h k).1
  obtain ⟨cs1, hs1⟩ := accepts_seg hw1 h1
  obtain ⟨cs2, hs2⟩ := accepts_seg hw2 h2
  obtain ⟨e1, m1⟩ := seg_made hs1
  obtain ⟨e2, m2⟩ := seg_made hs2
  have he : cs1.map CharObj.cp = cs2.map CharObj.cp :=
    made_unique hp (by simp [not_in_nil]) _ _ (fun k hk => .inl (m1 k hk)) (fun k hk => .inr (m2 k hk))
      (by rw [e1, e2])
  obtain ⟨ds, hds⟩ := seg_transfer (env' := env) (r' := g.rep) hs1 (fun c hc => by
    have hk : c.cp ∈ cs1.map CharObj.cp := List.mem_map_of_mem hc
    obtain ⟨c1, k1⟩ := m1 _ hk
    obtain ⟨c2, k2⟩ := m2 _ (he ▸ hk)
    obtain ⟨d, hd, hsh⟩ := b c.cp c1 c2 k1 k2
    exact ⟨d, hd, fun o _ => ctx_none hsh.norules⟩)
  exact seg_accepts hwf (fun k w hu =>
    absurd hu (inter_no_rules ord db1 db2 g1 g2 g hw1 hw2 hi1 hi2 h k w))
    (prefixFree hp (fun k hk => .inl ((hm k).1 hk).1)) hds

end inter

/-! ## The union -/

section union
variable (ord : SetOrder) (db1 db2 : UniDb) (g1 g2 g : LGR) (hw1 : WF g1.rep) (hw2 : WF g2.rep)
  (hi1 : Intact g1.rep) (hi2 : Intact g2.rep) (h : (unionLgrs ord db1 db2 g1 g2).2 = .ok g)
include hw1 hw2 hi1 hi2 h

/-- An entry of the union is subject to a rule iff only one LGR has it, and there it is. -/
theorem union_rules (k : Seq) (w : String) :
    Uses g k w ↔ Uses g1 k w ∧ ¬ In g2 k ∨ Uses g2 k w ∧ ¬ In g1 k := by
  obtain ⟨-, a, b, c, d, -⟩ := union_exact_partial ord db1 db2 g1 g2 g hw1 hw2 hi1 hi2 h
  unfold Uses In
  cases k1 : g1.rep.lookup k with
  | none =>
    cases k2 : g2.rep.lookup k with
    | none => simp [a k k1 k2]
    | some c2 =>
      obtain ⟨c, hc, ha, -⟩ := c k c2 k1 k2
      simp [hc, ha, plain]
  | some c1 =>
    cases k2 : g2.rep.lookup k with
    | none => simp [b k c1 k1 k2, plain]
    | some c2 =>
      obtain ⟨c, hc, hu⟩ := d k c1 c2 k1 k2
      simp [hc, hu.norules]

/-- **C132** A label accepted by the union is made of entries of the LGRs. -/
theorem union_made (env : Env) (label : Seq) (ha : Accepts env g label) :
    Made (fun k => In g1 k ∨ In g2 k) label := by
  obtain ⟨hwf, -⟩ := union_exact_partial ord db1 db2 g1 g2 g hw1 hw2 hi1 hi2 h
  obtain ⟨cs, hs⟩ := accepts_seg hwf ha
  obtain ⟨h1, h2⟩ := seg_made hs
  exact ⟨_, h1, fun k hk => (union_codepoints ord db1 db2 g1 g2 g hw1 hw2 hi1 hi2 h k).1 (h2 k hk)⟩

/-- **C132** A label all code points of which are entries of both LGRs is accepted by the union, if the
test returns, whatever rules these entries are subject to in the two LGRs. -/
theorem union_ignores_rules (env : Env) (label : Seq) (hl : ∀ x ∈ label, In g1 [x] ∧ In g2 [x])
    (p : Env.Prelim) (hp : env.prelim g.rep label = .ok p) : p.ok = true := by
  obtain ⟨hwf, -, -, -, b, -⟩ := union_exact_partial ord db1 db2 g1 g2 g hw1 hw2 hi1 hi2 h
  refine accepts_plain_labels_partial hwf hp (fun x hx => ?_)
  obtain ⟨⟨c1, k1⟩, c2, k2⟩ := hl x hx
  obtain ⟨c, hc, hs⟩ := b [x] c1 c2 k1 k2
  exact ⟨c, getChar_ok.2 hc, hs.norules⟩

/-- **C132** The union accepts every label which one of the LGRs accepts, when no entry of one of them
begins another entry of one of them, the rules of entries which only one LGR has say the same in the
union as in that LGR, and none of the rules raises. Missing for the full property: the other LGRs, for
which it is false (`union_overlap_wrong`). -/
theorem union_complete_partial (env env1 env2 : Env) (label : Seq)
    (hp : Free (fun k => In g1 k ∨ In g2 k))
    (hd : ∀ k w, Uses g k w → ∀ a i, ∃ b, env.ruleMatches w label a i = .ok b)
    (he1 : ∀ k w, Uses g1 k w → ¬ In g2 k → ∀ a i, env.ruleMatches w label a i = env1.ruleMatches w label a i)
    (he2 : ∀ k w, Uses g2 k w → ¬ In g1 k → ∀ a i, env.ruleMatches w label a i = env2.ruleMatches w label a i)
    (ha : Accepts env1 g1 label ∨ Accepts env2 g2 label) : Accepts env g label := by
  obtain ⟨hwf, -, b, c, d, -⟩ := union_exact_partial ord db1 db2 g1 g2 g hw1 hw2 hi1 hi2 h
  have hm := union_codepoints ord db1 db2 g1 g2 g hw1 hw2 hi1 hi2 h
  have hfin : ∀ ds, Segmentation env g.rep label ds → Accepts env g label := fun ds hds =>
    seg_accepts hwf hd (prefixFree hp (fun k hk => (hm k).1 hk)) hds
  rcases ha with ha | ha
  · obtain ⟨cs, hs⟩ := accepts_seg hw1 ha
    obtain ⟨ds, hds⟩ := seg_transfer (env' := env) (r' := g.rep) hs (fun x hx => by
      have k1 := getChar_ok.1 (hs.stored x hx)
      cases k2 : g2.rep.lookup x.cp with
      | none =>
        exact ⟨_, b x.cp x k1 k2, fun o => ctx_congr rfl rfl rfl (fun w hw =>
          he1 x.cp w ⟨x, k1, hw⟩ (by rintro ⟨c2, hc2⟩; rw [k2] at hc2; cases hc2) _ _)⟩
      | some c2 =>
        obtain ⟨y, hy, hu⟩ := d x.cp x c2 k1 k2
        exact ⟨y, hy, fun o _ => ctx_none hu.norules⟩)
    exact hfin ds hds
  · obtain ⟨cs, hs⟩ := accepts_seg hw2 ha
    obtain ⟨ds, hds⟩ := seg_transfer (env' := env) (r' := g.rep) hs (fun x hx => by
      have k2 := getChar_ok.1 (hs.stored x hx)
      cases k1 : g1.rep.lookup x.cp with
      | none =>
        obtain ⟨y, hy, ha, -⟩ := c x.cp x k1 k2
        exact ⟨y, hy, fun o => ctx_congr (lookup_cp hy) (by rw [ha]; rfl) (by rw [ha]; rfl) (fun w hw =>
          he2 x.cp w ⟨x, k2, hw⟩ (by rintro ⟨c2, hc2⟩; rw [k1] at hc2; cases hc2) _ _)⟩
      | some c1 =>
        obtain ⟨y, hy, hu⟩ := d x.cp c1 x k1 k2
        exact ⟨y, hy, fun o _ => ctx_none hu.norules⟩)
    exact hfin ds hds

end union

/-! ## What goes wrong -/

/-- Rule `r` never holds. -/
def envR : Env := ⟨fun w _ _ _ => if w = "r" then .ok false else .ok true⟩

theorem first_rejects : ¬ Accepts envR (LGR.run {} firstOps) [97] := by
  rintro ⟨p, hp, hok⟩
  have : envR.prelim (LGR.run {} firstOps).rep [97] = .ok ⟨false, [], [(97, some ["r"])], []⟩ := by
    decide +kernel
  rw [this] at hp
  simp only [Except.ok.injEq] at hp
  subst hp
  cases hok

/-- **C132** is violated: both LGRs have `a` under a rule which is not met, and reject it. Their union
and their intersection accept it, whatever the iteration order of sets. -/
theorem accepts_rejected_wrong (ord : SetOrder) : ¬ Accepts envR (LGR.run {} firstOps) [97] ∧
    (∃ g, (intersectLgrs ord none none (LGR.run {} firstOps) (LGR.run {} firstOps)).2 = .ok g ∧
      Accepts envR g [97]) ∧
    (∃ g, (unionLgrs ord none none (LGR.run {} firstOps) (LGR.run {} firstOps)).2 = .ok g ∧
      Accepts envR g [97]) := by
  have hin : In (LGR.run {} firstOps) [97] := ⟨_, rfl⟩
  have hall : ∀ x ∈ [97], In (LGR.run {} firstOps) [x] ∧ In (LGR.run {} firstOps) [x] := by
    intro x hx
    simp only [List.mem_singleton] at hx
    subst hx
    exact ⟨hin, hin⟩
  refine ⟨first_rejects, ?_, ?_⟩
  · obtain ⟨g, hg⟩ := C31.intersect_returns ord none none _ _ (run_wf firstOps).1 (run_wf firstOps).1
      first_fit.2 first_fit.2 first_fit.1 first_fit.1
    exact ⟨g, hg, inter_ignores_rules ord none none _ _ g (run_wf firstOps).1 (run_wf firstOps).1
      first_fit.2 first_fit.2 hg envR [97] hall⟩
  · obtain ⟨g, hg⟩ := union_returns ord none none _ _ (run_wf firstOps).1 (run_wf firstOps).1
      first_fit.2 first_fit.2 first_fit.1 first_fit.1
    obtain ⟨hwf, -⟩ := union_exact_partial ord none none _ _ g (run_wf firstOps).1 (run_wf firstOps).1
      first_fit.2 first_fit.2 hg
    obtain ⟨p, hp⟩ := answers (env := envR) hwf [97] (by
      intro k w _ a i
      unfold envR
      by_cases hw : w = "r" <;> simp [hw])
    exact ⟨g, hg, p, hp, union_ignores_rules ord none none _ _ g (run_wf firstOps).1 (run_wf firstOps).1
      first_fit.2 first_fit.2 hg envR [97] hall p hp⟩

/-- LGRs with `a` and `bc`; with `a`, `ab` and `bc`; with `ab`. -/
def opsA : List (Ctx × LGR.Op) := [(C27.ctx, .addCp (.int 97) {}), (C27.ctx, .addCp (.seq [98, 99]) {})]
def opsB : List (Ctx × LGR.Op) := (C27.ctx, .addCp (.seq [97, 98]) {}) :: opsA
def opsC : List (Ctx × LGR.Op) := [(C27.ctx, .addCp (.seq [97, 98]) {})]

theorem fitA : Fit none (LGR.run {} opsA) ∧ Intact (LGR.run {} opsA).rep :=
  ⟨fit_of_all (run_wf _).1 (by decide +kernel), intact_of_all (run_wf _).1 rfl (by decide +kernel)⟩
theorem fitB : Fit none (LGR.run {} opsB) ∧ Intact (LGR.run {} opsB).rep :=
  ⟨fit_of_all (run_wf _).1 (by decide +kernel), intact_of_all (run_wf _).1 rfl (by decide +kernel)⟩
theorem fitC : Fit none (LGR.run {} opsC) ∧ Intact (LGR.run {} opsC).rep :=
  ⟨fit_of_all (run_wf _).1 (by decide +kernel), intact_of_all (run_wf _).1 rfl (by decide +kernel)⟩

theorem in_iff {g : LGR} (hwf : WF g.rep) (k : Seq) : In g k ↔ k ∈ g.rep.allChars.map CharObj.cp := by
  rw [List.mem_map]
  constructor
  · rintro ⟨c, hc⟩
    exact ⟨c, (mem_allChars hwf c).2 (by rw [lookup_cp hc]; exact hc), lookup_cp hc⟩
  · rintro ⟨c, hc, rfl⟩
    exact ⟨c, (mem_allChars hwf c).1 hc⟩

theorem inA (k : Seq) : In (LGR.run {} opsA) k ↔ k = [97] ∨ k = [98, 99] := by
  rw [in_iff (run_wf opsA).1,
    show (LGR.run {} opsA).rep.allChars.map CharObj.cp = [[97], [98, 99]] by decide +kernel]
  simp
theorem inB (k : Seq) : In (LGR.run {} opsB) k ↔ k = [97, 98] ∨ k = [97] ∨ k = [98, 99] := by
  rw [in_iff (run_wf opsB).1]
  have : ∀ k, k ∈ (LGR.run {} opsB).rep.allChars.map CharObj.cp ↔ k ∈ [[97, 98], [97], [98, 99]] := by
    intro k
    exact List.Perm.mem_iff (by decide +kernel)
  rw [this]; simp
theorem inC (k : Seq) : In (LGR.run {} opsC) k ↔ k = [97, 98] := by
  rw [in_iff (run_wf opsC).1,
    show (LGR.run {} opsC).rep.allChars.map CharObj.cp = [[97, 98]] by decide +kernel]
  simp

theorem usesA (ops) (h : ∀ c ∈ (LGR.run {} ops).rep.allChars, c.attrs.whenR = none ∧ c.attrs.notWhenR = none)
    (k : Seq) (w : String) : ¬ Uses (LGR.run {} ops) k w := by
  rintro ⟨c, hc, hw⟩
  have := h c ((mem_allChars (run_wf ops).1 c).2 (by rw [lookup_cp hc]; exact hc))
  simp [this] at hw

theorem rejects_of {env : Env} {g : LGR} {label : Seq} {p : Env.Prelim}
    (hp : env.prelim g.rep label = .ok p) (hok : p.ok = false) : ¬ Accepts env g label := by
  rintro ⟨q, hq, h⟩
  rw [hp] at hq
  simp only [Except.ok.injEq] at hq
  rw [← hq, hok] at h; cases h

theorem freeA : Free (In (LGR.run {} opsA)) := by
  intro k l hk hl hp
  rw [inA] at hk hl
  rcases hk with rfl | rfl <;> rcases hl with rfl | rfl <;> simp_all

/-- **C132** is violated even without rules: `a`, `ab` and `bc` reject `abc`, the longest match being
taken first, but `a` and `bc` accept it; so the intersection of the two accepts a label which one of
them rejects. -/
theorem inter_overlap_wrong (ord : SetOrder) :
    ¬ Accepts envR (LGR.run {} opsB) [97, 98, 99] ∧
    ∃ g, (intersectLgrs ord none none (LGR.run {} opsA) (LGR.run {} opsB)).2 = .ok g ∧
      Accepts envR g [97, 98, 99] := by
  obtain ⟨p, hp, hok⟩ : ∃ p, envR.prelim (LGR.run {} opsB).rep [97, 98, 99] = .ok p ∧ p.ok = false :=
    ⟨⟨false, [97, 98], [(99, none)], [{ cp := [97, 98] }]⟩, by decide +kernel, rfl⟩
  refine ⟨rejects_of hp hok, ?_⟩
  obtain ⟨g, hg⟩ := C31.intersect_returns ord none none _ _ (run_wf opsA).1 (run_wf opsB).1
    fitA.2 fitB.2 fitA.1 fitB.1
  refine ⟨g, hg, ?_⟩
  obtain ⟨hwf, -, b, -⟩ := C31.intersect_exact ord none none _ _ g (run_wf opsA).1 (run_wf opsB).1
    fitA.2 fitB.2 hg
  have hm := fun k => (C31.intersect_members ord none none _ _ g (run_wf opsA).1 (run_wf opsB).1
    fitA.2 fitB.2 hg k).1
  have hA : Segmentation envR (LGR.run {} opsA).rep [97, 98, 99] [{ cp := [97] }, { cp := [98, 99] }] := by
    rw [← segFrom_zero, segFrom_cons, segFrom_cons, segFrom_nil]
    refine ⟨⟨by decide +kernel, ⟨[98, 99], rfl⟩⟩, ⟨by simp, by simp⟩,
      ⟨by decide +kernel, ⟨[], rfl⟩⟩, ⟨by simp, by simp⟩, rfl⟩
  obtain ⟨ds, hds⟩ := seg_transfer (env' := envR) (r' := g.rep) hA (fun c hc => by
    have h2 : In (LGR.run {} opsB) c.cp := by
      rw [inB]
      simp only [List.mem_cons, List.not_mem_nil, or_false] at hc
      rcases hc with rfl | rfl <;> simp
    obtain ⟨c2, k2⟩ := h2
    obtain ⟨d, hd, hs⟩ := b c.cp c c2 (getChar_ok.1 (hA.stored c hc)) k2
    exact ⟨d, hd, fun o _ => ctx_none hs.norules⟩)
  exact seg_accepts hwf (fun k w hu => absurd hu
    (inter_no_rules ord none none _ _ g (run_wf opsA).1 (run_wf opsB).1 fitA.2 fitB.2 hg k w))
    (prefixFree freeA (fun k hk => ((hm k).1 hk).1)) hds

/-- **C132** is violated by unions too: `abc` is accepted by an LGR with `a` and `bc` and rejected by its
union with an LGR that has only `ab`. -/
theorem union_overlap_wrong (ord : SetOrder) :
    Accepts envR (LGR.run {} opsA) [97, 98, 99] ∧
    ∃ g, (unionLgrs ord none none (LGR.run {} opsA) (LGR.run {} opsC)).2 = .ok g ∧
      ¬ Accepts envR g [97, 98, 99] := by
  refine ⟨⟨⟨true, [97, 98, 99], [], [{ cp := [97] }, { cp := [98, 99] }]⟩, by decide +kernel, rfl⟩, ?_⟩
  obtain ⟨g, hg⟩ := union_returns ord none none _ _ (run_wf opsA).1 (run_wf opsC).1
    fitA.2 fitC.2 fitA.1 fitC.1
  refine ⟨g, hg, ?_⟩
  obtain ⟨hwf, -⟩ := union_exact_partial ord none none _ _ g (run_wf opsA).1 (run_wf opsC).1
    fitA.2 fitC.2 hg
  have hm := union_codepoints ord none none _ _ g (run_wf opsA).1 (run_wf opsC).1 fitA.2 fitC.2 hg
  have hu := union_rules ord none none _ _ g (run_wf opsA).1 (run_wf opsC).1 fitA.2 fitC.2 hg
  rintro ⟨p, hp, hok⟩
  obtain ⟨hs, -, -, hl⟩ := C13.accepted_is_segmentation hwf hp hok
  have hin : ∀ c ∈ p.chars, c.cp = [97] ∨ c.cp = [98, 99] ∨ c.cp = [97, 98] := by
    intro c hc
    have := (hm c.cp).1 ⟨c, getChar_ok.1 (hs.stored c hc)⟩
    rw [inA, inC] at this
    rcases this with (h | h) | h <;> simp [h]
  cases hch : p.chars with
  | nil => have := hs.concat; rw [hch] at this; simp at this
  | cons c cs =>
    have hcat := hs.concat
    rw [hch, List.flatMap_cons] at hcat
    rw [hch] at hin
    obtain ⟨d, hd⟩ : In g [97, 98] := (hm _).2 (.inr ((inC _).2 rfl))
    have hdc := lookup_cp hd
    have hno : d.attrs.whenR = none ∧ d.attrs.notWhenR = none := by
      have : ∀ w, ¬ Uses g [97, 98] w := by
        intro w hw
        rw [hu] at hw
        rcases hw with ⟨h, -⟩ | ⟨h, -⟩
        · exact usesA opsA (by decide +kernel) _ _ h
        · exact usesA opsC (by decide +kernel) _ _ h
      refine ⟨?_, ?_⟩
      · cases hw : d.attrs.whenR with
        | none => rfl
        | some w => exact absurd ⟨d, hd, .inl hw⟩ (this w)
      · cases hw : d.attrs.notWhenR with
        | none => rfl
        | some w => exact absurd ⟨d, hd, .inr hw⟩ (this w)
    have hlong := hl [] c cs hch d ⟨by rw [hdc]; exact getChar_ok.2 hd, by rw [hdc]; exact ⟨[99], rfl⟩⟩
      (ctx_none hno)
    simp only [CharObj.len, hdc, List.length_cons, List.length_nil] at hlong
    rcases hin c (by simp) with h | h | h
    · rw [h] at hlong; simp at hlong
    · rw [h] at hcat; simp at hcat
    · rw [h] at hcat
      simp only [List.cons_append, List.nil_append, List.cons.injEq, true_and] at hcat
      cases cs with
      | nil => simp at hcat
      | cons c' cs =>
        rw [List.flatMap_cons] at hcat
        rcases hin c' (by simp) with h | h | h <;> rw [h] at hcat <;> simp at hcat

/-! Non-vacuity of the partial theorems: an LGR with `a` and `bc`, with itself. -/
example (ord : SetOrder) : ∃ g, (intersectLgrs ord none none (LGR.run {} opsA) (LGR.run {} opsA)).2 = .ok g ∧
    Accepts envR g [97, 98, 99] ∧ Free (fun k => In (LGR.run {} opsA) k ∨ In (LGR.run {} opsA) k) := by
  obtain ⟨g, hg⟩ := C31.intersect_returns ord none none _ _ (run_wf opsA).1 (run_wf opsA).1
    fitA.2 fitA.2 fitA.1 fitA.1
  have hf : Free (fun k => In (LGR.run {} opsA) k ∨ In (LGR.run {} opsA) k) := by simpa using freeA
  have ha : Accepts envR (LGR.run {} opsA) [97, 98, 99] :=
    ⟨⟨true, [97, 98, 99], [], [{ cp := [97] }, { cp := [98, 99] }]⟩, by decide +kernel, rfl⟩
  exact ⟨g, hg, inter_complete_partial ord none none _ _ g (run_wf opsA).1 (run_wf opsA).1 fitA.2 fitA.2 hg
    envR envR envR _ hf ha ha, hf⟩

end Lgr.Props.C132
