import Verif.AnnotateSet
import Verif.Props.Annotate
import Verif.Props.CollisionReports7
import Verif.Props.CliSet

/-!
# C138: annotation with a set of LGRs
-/

namespace Lgr.Props.C138
open Lgr LabelInput Collisions Repertoire FullEnv AnnotateSet C113

/-! ## Specification -/

/-- The labels read from the set, sorted into those which are reported, with a text, and those which are kept. -/
inductive Sorted (m : Tested) (str : Err → String) : List Read → List (Seq × String) → List Seq → Prop where
  | nil : Sorted m str [] [] []
  | error {x xs bs ks} : x.valid = false → Sorted m str xs bs ks →
      Sorted m str (x :: xs) ((x.label, x.errorText str) :: bs) ks
  | out {x xs bs ks} : x.valid = true → ¬ Accepted m.env m.rep x.label → Sorted m str xs bs ks →
      Sorted m str (x :: xs) ((x.label, "invalid") :: bs) ks
  | keep {x xs bs ks} : x.valid = true → Accepted m.env m.rep x.label → Sorted m str xs bs ks →
      Sorted m str (x :: xs) bs (x.label :: ks)

/-- Another label of the set has the index of the label. -/
def Collides (m : Tested) (ks : List Seq) (l : Seq) : Prop :=
  ∃ k ∈ ks, k ≠ l ∧ ∃ i, indexOf m.env m.rep k = .ok i ∧ indexOf m.env m.rep l = .ok i

/-- What is written after the disposition of an eligible label. -/
inductive Suffix (m : Tested) (ks : List Seq) (l : Seq) : String → Prop where
  | collides : Collides m ks l → Suffix m ks l " - Label collides with the LGR set labels"
  | inSet : ¬ Collides m ks l → l ∈ ks → Suffix m ks l " - Label is in the LGR set labels"
  | alone : ¬ Collides m ks l → l ∉ ks → Suffix m ks l ""

/-- What is written about a label: its error; or its disposition under the LGR of the script, and what there is to say
about the set if it is eligible. -/
inductive Says (m s : Tested) (str : Err → String) (ks : List Seq) (x : Read) (b : Block) : Prop where
  | error : x.valid = false → b.label = x.label → b.out = x.errorText str → b.action = none → b.cps = [] →
      Says m s str ks x b
  | refused (el : Eligible) : x.valid = true → s.env.testEligible s.rep s.actions x.label = .ok el →
      el.ok = false → el.disp = some "invalid" → b.label = x.label → b.out = "invalid" → b.cps = el.invalid →
      Says m s str ks x b
  | eligible (el : Eligible) (d t : String) : x.valid = true →
      s.env.testEligible s.rep s.actions x.label = .ok el → el.ok = true → el.disp = some d → Suffix m ks x.label t →
      b.label = x.label → b.out = d ++ t → b.action = none → b.cps = [] → Says m s str ks x b

/-! ## The labels of the set -/

theorem filter_sorted {m : Tested} {str : Err → String} : ∀ {set : List Read} {out : List Out} {ks : List Seq},
    filter m str set = (out, .ok ks) →
    ∃ bs, Sorted m str set bs ks ∧ out = bs.map (fun p => Out.bad p.1 p.2)
  | [], out, ks, h => by cases h; exact ⟨[], .nil, rfl⟩
  | x :: xs, out, ks, h => by
    rw [filter.eq_2] at h
    cases hv : x.valid with
    | false =>
      rw [hv] at h
      simp only [Bool.not_false, if_true, Prod.mk.injEq] at h
      obtain ⟨bs, h1, h2⟩ := filter_sorted (set := xs) (out := (filter m str xs).1) (Prod.ext rfl h.2)
      exact ⟨_, .error hv h1, by rw [← h.1]; simp only [h2]; rfl⟩
    | true =>
      rw [hv] at h
      simp only [Bool.not_true, Bool.false_eq_true, if_false] at h
      split at h
      · cases h
      · rename_i p hp
        cases hok : p.ok with
        | false =>
          rw [hok] at h
          simp only [Bool.not_false, if_true, Prod.mk.injEq] at h
          obtain ⟨bs, h1, h2⟩ := filter_sorted (set := xs) (Prod.ext rfl h.2)
          refine ⟨_, .out hv ?_ h1, by rw [← h.1]; simp only [h2]; rfl⟩
          rintro ⟨q, hq, hqk⟩
          rw [hp] at hq
          cases hq
          rw [hok] at hqk; cases hqk
        | true =>
          rw [hok] at h
          simp only [Bool.not_true, Bool.false_eq_true, if_false, Prod.mk.injEq] at h
          rcases hf : (filter m str xs).2 with e | ks'
          · rw [hf] at h; cases h.2
          · rw [hf] at h
            obtain ⟨bs, h1, h2⟩ := filter_sorted (set := xs) (Prod.ext rfl hf)
            have hk : x.label :: ks' = ks := by simpa [Except.map] using h.2
            subst hk
            exact ⟨bs, .keep hv ⟨p, hp, hok⟩ h1, by rw [← h.1]; exact h2⟩

theorem filter_returns {m : Tested} {str : Err → String} : ∀ {set : List Read},
    (∀ x ∈ set, ∃ p, m.env.prelim m.rep x.label = .ok p) → ∃ out ks, filter m str set = (out, .ok ks)
  | [], _ => ⟨[], [], rfl⟩
  | x :: xs, h => by
    obtain ⟨out, ks, hf⟩ := filter_returns (m := m) (str := str) (set := xs) (fun y hy => h y (by simp [hy]))
    obtain ⟨p, hp⟩ := h x (by simp)
    rw [filter.eq_2, hf]
    cases hv : x.valid with
    | false => exact ⟨_, _, rfl⟩
    | true =>
      simp only [Bool.not_true, Bool.false_eq_true, if_false, hp]
      cases hok : p.ok with
      | false => exact ⟨_, _, rfl⟩
      | true => exact ⟨_, _, rfl⟩

theorem sorted_mem {m : Tested} {str : Err → String} {set : List Read} {bs : List (Seq × String)} {ks : List Seq}
    (h : Sorted m str set bs ks) (k : Seq) :
    k ∈ ks ↔ ∃ x ∈ set, x.valid = true ∧ x.label = k ∧ Accepted m.env m.rep k := by
  induction h with
  | nil => simp
  | error hv _ ih => rw [ih]; simp [hv]
  | @out x xs bs ks hv ha _ ih =>
    rw [ih]
    simp only [List.mem_cons, exists_eq_or_imp]
    constructor
    · exact .inr
    · rintro (⟨-, rfl, h⟩ | h)
      · exact absurd h ha
      · exact h
  | @keep x xs bs ks hv ha _ ih =>
    rw [List.mem_cons, ih]
    simp only [List.mem_cons, exists_eq_or_imp, hv, true_and]
    constructor
    · rintro (rfl | h)
      · exact .inl ⟨rfl, ha⟩
      · exact .inr h
    · rintro (⟨rfl, -⟩ | h)
      · exact .inl rfl
      · exact .inr h

/-! ## The labels -/

theorem flatMap_self {reread : Seq → List Seq} : ∀ {ls : List Seq}, (∀ l ∈ ls, reread l = [l]) → ls.flatMap reread = ls
  | [], _ => rfl
  | l :: ls, h => by
    rw [List.flatMap_cons, h l (by simp), flatMap_self (fun x hx => h x (by simp [hx]))]
    rfl

theorem verdict_eq {m : Tested} {log : Seq → Seq → String} {order : List Seq → List Seq} {reread : Seq → List Seq}
    {ks : List Seq} {l : Seq} (hr : ∀ x ∈ ks ++ [l], reread x = [x]) :
    verdict m log order reread ks l =
      Annotate.verdict (indexOf m.env m.rep) (dispoOf m.env m.rep m.actions log) order ks l := by
  unfold verdict Annotate.verdict
  simp only
  rw [flatMap_self hr]

/-- What is written about a label which is read as itself, when no two labels kept collide. -/
theorem says_of {m s : Tested} {log : Seq → Seq → String} {order : List Seq → List Seq} (ho : C44.Order order)
    {reread : Seq → List Seq} {str : Err → String} {ks : List Seq}
    (hc : ∀ k ∈ ks, ∀ k' ∈ ks, ∀ i, indexOf m.env m.rep k = .ok i → indexOf m.env m.rep k' = .ok i → k = k')
    {x : Read} (hr : x.valid = true → ∀ y ∈ ks ++ [x.label], reread y = [y]) {b : Block}
    (h : setAnnotateOne s.env s.rep s.actions m.actions (verdict m log order reread ks) str x = .ok b) :
    Says m s str ks x b := by
  obtain ⟨h1, h2⟩ := C110.set_out h
  rcases h2 with ⟨hv, ho'⟩ | ⟨hv, el, d, ht, hd, h3⟩
  · have : b = ⟨x.label, x.errorText str, none, []⟩ := by
      unfold setAnnotateOne at h
      rw [hv] at h
      cases h; rfl
    subst this
    exact .error hv rfl rfl rfl rfl
  · rcases h3 with ⟨rfl, hok, h4, h5⟩ | ⟨hs, hok, h4, h5, v, h6, h7⟩
    · exact .refused el hv ht hok hd h1 h4 h5
    · rw [verdict_eq (hr hv)] at h6
      obtain ⟨g1, g2⟩ := C44.annotate_reports_partial _ _ order ho ks x.label v h6
      have hcol : (∃ l1 ∈ ks ++ [x.label], ∃ l2 ∈ ks ++ [x.label], l1 ≠ l2 ∧ ∃ k,
          indexOf m.env m.rep l1 = .ok k ∧ indexOf m.env m.rep l2 = .ok k) ↔ Collides m ks x.label := by
        constructor
        · rintro ⟨l1, k1, l2, k2, hne, i, e1, e2⟩
          simp only [List.mem_append, List.mem_singleton] at k1 k2
          rcases k1 with k1 | rfl
          · rcases k2 with k2 | rfl
            · exact absurd (hc l1 k1 l2 k2 i e1 e2) hne
            · exact ⟨l1, k1, hne, i, e1, e2⟩
          · rcases k2 with k2 | rfl
            · exact ⟨l2, k2, hne.symm, i, e2, e1⟩
            · exact absurd rfl hne
        · rintro ⟨k, hk, hne, i, e1, e2⟩
          exact ⟨k, by simp [hk], x.label, by simp, hne, i, e1, e2⟩
      rw [hcol] at g1 g2
      cases v with
      | none =>
        have : ¬ (x.label ∈ ks ∨ Collides m ks x.label) := fun hh => g1.2 hh rfl
        exact .eligible el d "" hv ht hok hd (.alone (fun hh => this (.inr hh)) (fun hh => this (.inl hh))) h1
          (by simpa using h7) h4 h5
      | inSet =>
        have n : ¬ Collides m ks x.label := fun hh => by cases g2.2 hh
        exact .eligible el d _ hv ht hok hd (.inSet n ((g1.1 (by simp)).resolve_right n)) h1 h7 h4 h5
      | collides => exact .eligible el d _ hv ht hok hd (.collides (g2.1 rfl)) h1 h7 h4 h5

theorem all_ok {env : FullEnv} {r : Repertoire} {actions actionsM : List Action}
    {verdict : Seq → Except Err Annotate.Verdict} {str : Err → String} : ∀ {xs : List Read} {bs : List Block},
    setAnnotate env r actions actionsM verdict str xs = (bs, .ok ()) →
    List.Forall₂ (fun x b => setAnnotateOne env r actions actionsM verdict str x = .ok b) xs bs
  | [], bs, h => by cases h; exact .nil
  | x :: xs, bs, h => by
    rw [setAnnotate.eq_2] at h
    split at h
    · cases h
    · rename_i b hb
      simp only [Prod.mk.injEq] at h
      rw [← h.1]
      exact .cons hb (all_ok (Prod.ext rfl h.2))

/-- **C138** The labels of the set that cannot be used are written first, each with the reason, in order; then, in
order, the other labels with their disposition under the LGR of the script, and for eligible ones whether they are
labels of the set or collide with one of them. Missing: sets with labels that collide with each other
(`unrelated_wrong`) and labels that are not read again as themselves (`C108.reread_wrong`). -/
theorem annotate_set_partial {m s : Tested} {log : Seq → Seq → String} {order : List Seq → List Seq}
    (ho : C44.Order order) {reread : Seq → List Seq} {str : Err → String} {set labels : List Read}
    (hc : ∀ x ∈ set, ∀ y ∈ set, x.valid = true → y.valid = true → Accepted m.env m.rep x.label →
      Accepted m.env m.rep y.label → ∀ i, indexOf m.env m.rep x.label = .ok i →
      indexOf m.env m.rep y.label = .ok i → x.label = y.label)
    (hr : ∀ x ∈ set ++ labels, x.valid = true → reread x.label = [x.label]) {out : List Out}
    (h : AnnotateSet.annotate m s log order reread str set labels = (out, .ok ())) :
    ∃ bads ks blocks, Sorted m str set bads ks ∧ List.Forall₂ (Says m s str ks) labels blocks ∧
      out = .header :: bads.map (fun p => .bad p.1 p.2) ++ .footer :: blocks.map .block := by
  unfold AnnotateSet.annotate at h
  split at h
  · cases h
  · rename_i o ks hf
    obtain ⟨bads, h1, rfl⟩ := filter_sorted hf
    rcases hs : setAnnotate s.env s.rep s.actions m.actions (verdict m log order reread ks) str labels with ⟨bs, y⟩
    rw [hs] at h
    simp only [Prod.mk.injEq] at h
    obtain ⟨rfl, rfl⟩ := h
    refine ⟨bads, ks, bs, h1, ?_, rfl⟩
    have hk := sorted_mem h1
    have hc' : ∀ k ∈ ks, ∀ k' ∈ ks, ∀ i, indexOf m.env m.rep k = .ok i → indexOf m.env m.rep k' = .ok i → k = k' := by
      intro k hk1 k' hk2 i e1 e2
      obtain ⟨x, hx, vx, rfl, ax⟩ := (hk k).1 hk1
      obtain ⟨y, hy, vy, rfl, ay⟩ := (hk k').1 hk2
      exact hc x hx y hy vx vy ax ay i e1 e2
    have hr' : ∀ k ∈ ks, reread k = [k] := by
      intro k hk1
      obtain ⟨x, hx, vx, rfl, -⟩ := (hk k).1 hk1
      exact hr x (by simp [hx]) vx
    have hr'' : ∀ x ∈ labels, x.valid = true → reread x.label = [x.label] := fun x hx => hr x (by simp [hx])
    have ha := all_ok hs
    clear hs hr hc hk h1 hf
    induction ha with
    | nil => exact .nil
    | @cons x b xs bs hb _ ih =>
      refine .cons ?_ (ih (fun y hy => hr'' y (by simp [hy])))
      refine says_of ho hc' ?_ hb
      intro hv y hy
      rcases List.mem_append.1 hy with hy | hy
      · exact hr' y hy
      · rw [List.mem_singleton.1 hy]; exact hr'' x (by simp) hv

/-! ## It ends -/

theorem verdict_returns {m : Tested} (hm : Defined m.env m.rep m.actions) {log : Seq → Seq → String}
    {order : List Seq → List Seq} (ho : C44.Order order) {reread : Seq → List Seq} {ks : List Seq} {l : Seq}
    (hr : ∀ x ∈ ks ++ [l], ∀ y ∈ reread x, Fits y) : ∃ v, verdict m log order reread ks l = .ok v := by
  have hx : ∀ y ∈ order ((ks ++ [l]).flatMap reread), Fits y := by
    intro y hy
    rw [ho.mem, List.mem_flatMap] at hy
    obtain ⟨x, h1, h2⟩ := hy
    exact hr x h1 y h2
  obtain ⟨d, hd⟩ := C32.get_collisions_returns (indexOf m.env m.rep)
    (tame Fits (dispoOf m.env m.rep m.actions log)) (order ((ks ++ [l]).flatMap reread)) false
    (ho.nodup _) (fun l e he => C121.index_defined hm l e he)
    (C114.tame_returns (fun b l w hl => dispoOf_ok hm log b hl w))
  have he : getCollisions (indexOf m.env m.rep) (dispoOf m.env m.rep m.actions log)
      (order ((ks ++ [l]).flatMap reread)) false [] = .ok d := by
    rw [← hd]
    unfold getCollisions
    rw [generate_congr (tlds := []) false false (dispo' := tame Fits (dispoOf m.env m.rep m.actions log))]
    intro b l' w k hl _
    rw [tame_pos (hx l' (hl.resolve_right (by simp)))]
  unfold verdict Annotate.verdict
  simp only [he]
  exact ⟨_, rfl⟩

theorem one_returns {m s : Tested} (hs : Defined s.env s.rep s.actions) (hlen : s.actions.length ≤ m.actions.length)
    {vd : Seq → Except Err Annotate.Verdict} {str : Err → String} {x : Read}
    (hv : x.valid = true → x.label ≠ [] ∧ ∃ v, vd x.label = .ok v) :
    ∃ b, setAnnotateOne s.env s.rep s.actions m.actions vd str x = .ok b := by
  unfold setAnnotateOne
  cases hx : x.valid with
  | false => exact ⟨_, rfl⟩
  | true =>
    obtain ⟨hl, v, h1⟩ := hv hx
    obtain ⟨el, he⟩ := C25.testEligible_defined hs.wf hs.rules hs.actions false hl
    simp only [if_true, he, h1]
    have : ∃ v', (if el.ok = true then (.ok v : Except Err Annotate.Verdict) else .ok .none) = .ok v' := by
      split <;> exact ⟨_, rfl⟩
    obtain ⟨v', h2⟩ := this
    rw [h2]
    show ∃ b, outLabel m.actions x.label el _ = .ok b
    unfold outLabel
    split
    · rename_i hc
      rcases C110.eligible_cases he with ⟨p, -, -, -, -, h5, -⟩ | ⟨-, -, d, pre, a', post, -, -, h5, h6, -⟩
      · rw [h5] at hc; simp at hc
      · have : el.idx.toNat < (effectiveActions m.actions).length := by
          have := congrArg List.length h5
          simp only [List.length_append, List.length_cons] at this
          have h7 : (effectiveActions m.actions).length = m.actions.length + defaultActions.length := by
            unfold effectiveActions; simp
          rw [h6, h7]
          simp only [Int.toNat_natCast]
          omega
        rw [List.getElem?_eq_getElem this]
        exact ⟨_, rfl⟩
    · exact ⟨_, rfl⟩

theorem set_returns {env : FullEnv} {r : Repertoire} {actions actionsM : List Action}
    {vd : Seq → Except Err Annotate.Verdict} {str : Err → String} : ∀ {xs : List Read},
    (∀ x ∈ xs, ∃ b, setAnnotateOne env r actions actionsM vd str x = .ok b) →
    ∃ bs, setAnnotate env r actions actionsM vd str xs = (bs, .ok ())
  | [], _ => ⟨[], rfl⟩
  | x :: xs, h => by
    obtain ⟨b, hb⟩ := h x (by simp)
    obtain ⟨bs, h1⟩ := set_returns (xs := xs) (fun y hy => h y (by simp [hy]))
    rw [setAnnotate.eq_2, hb]
    simp only [h1]
    exact ⟨_, rfl⟩

/-- **C138** With rules that are defined and labels of at most 63 code points, the annotation ends normally. Missing:
an LGR of the script with more actions than the merged LGR (`more_actions_wrong`). -/
theorem annotate_returns_partial {m s : Tested} (hm : Defined m.env m.rep m.actions) (hs : Defined s.env s.rep s.actions)
    (hlen : s.actions.length ≤ m.actions.length) (log : Seq → Seq → String) {order : List Seq → List Seq}
    (ho : C44.Order order) {reread : Seq → List Seq} (str : Err → String) {set labels : List Read}
    (hl : ∀ x ∈ labels, x.valid = true → x.label ≠ [])
    (hr : ∀ x ∈ set ++ labels, x.valid = true → ∀ y ∈ reread x.label, Fits y) :
    ∃ out, AnnotateSet.annotate m s log order reread str set labels = (out, .ok ()) := by
  obtain ⟨o, ks, hf⟩ := filter_returns (m := m) (str := str) (set := set)
    (fun x _ => prelim_defined hm.wf hm.rules x.label)
  obtain ⟨bads, h1, -⟩ := filter_sorted hf
  obtain ⟨bs, h2⟩ := set_returns (xs := labels) (env := s.env) (r := s.rep) (actions := s.actions)
    (actionsM := m.actions) (vd := verdict m log order reread ks) (str := str) (fun x hx => one_returns hs hlen (fun hv =>
      ⟨hl x hx hv, verdict_returns hm ho (fun y hy => by
        rcases List.mem_append.1 hy with hy | hy
        · obtain ⟨z, hz, vz, rfl, -⟩ := (sorted_mem h1 y).1 hy
          exact hr z (by simp [hz]) vz
        · rw [List.mem_singleton.1 hy]; exact hr x (by simp [hx]) hv)⟩))
  unfold AnnotateSet.annotate
  simp only [hf, h2]
  exact ⟨_, rfl⟩

/-! ## What collisions are -/

/-- In an LGR whose variants are unconditional, symmetric and transitive, the labels that collide are the variants of
the labels kept. -/
theorem collides_iff_variant_partial {m : Tested} (h : Defined m.env m.rep m.actions) (hpf : C14.PrefixFree m.rep)
    (hu : Unconditional m.rep) (hsy : SymmetricR m.rep) (ht : TransitiveR m.rep) {str : Err → String}
    {set : List Read} {bs : List (Seq × String)} {ks : List Seq} (hs : Sorted m str set bs ks)
    (hne : ∀ x ∈ set, x.label ≠ []) {l : Seq} (hl : l ≠ []) (ha : Accepted m.env m.rep l) :
    Collides m ks l ↔ ∃ x ∈ set, x.valid = true ∧ Accepted m.env m.rep x.label ∧ x.label ≠ l ∧
      C18.VariantOf m.env m.rep x.label l := by
  obtain ⟨k, hk⟩ := (C17.index_total h.wf h.rules hl 0).2 ha
  have hm := sorted_mem hs
  constructor
  · rintro ⟨y, hy, hn, i, e1, e2⟩
    obtain ⟨x, hx, vx, rfl, ax⟩ := (hm y).1 hy
    exact ⟨x, hx, vx, ax, hn,
      (C18.same_index_iff_variant_partial h.wf hpf hu hsy ht h.rules (hne x hx) hl ax ha e1 e2).1 rfl⟩
  · rintro ⟨x, hx, vx, ax, hn, hv⟩
    obtain ⟨i, hi⟩ := (C17.index_total h.wf h.rules (hne x hx) 0).2 ax
    have := (C18.same_index_iff_variant_partial h.wf hpf hu hsy ht h.rules (hne x hx) hl ax ha hi hk).2 hv
    exact ⟨x.label, (hm _).2 ⟨x, hx, vx, rfl, ax⟩, hn, i, hi, this ▸ hk⟩

/-! ## Examples and violations -/

/-- The code points 1 and 2 are variants of each other, 3 is alone. -/
def rep2 : Repertoire := Repertoire.run {} [.addChar [1] {}, .addChar [2] {}, .addChar [3] {},
  .addVariant [1] { cp := [2] }, .addVariant [2] { cp := [1] }]
def merged2 : Tested := ⟨C110.env1, rep2, []⟩
def script2 : Tested := ⟨C110.env1, Repertoire.run {} [.addChar [2] {}, .addChar [3] {}], []⟩
def bad2 : Read := ⟨[], [8], false, some (some .valueError)⟩

open C110 (read1) in
example : AnnotateSet.annotate merged2 script2 (fun _ _ => "") List.dedup (fun l => [l]) (fun _ => "error")
    [read1 [1], bad2, read1 [9], read1 [3]] [read1 [2], read1 [3], bad2, read1 [3, 3], read1 [1]] =
    ([.header, .bad [8] "error", .bad [9] "invalid", .footer,
      .block ⟨[2], "valid - Label collides with the LGR set labels", none, []⟩,
      .block ⟨[3], "valid - Label is in the LGR set labels", none, []⟩, .block ⟨[8], "error", none, []⟩,
      .block ⟨[3, 3], "valid", none, []⟩, .block ⟨[1], "invalid", none, [(1, none)]⟩], .ok ()) := by decide +kernel

/-- Two different labels of the set that have the same index make every eligible label be reported, whether or not it
has anything to do with them. -/
theorem unrelated_wrong {m s : Tested} {log : Seq → Seq → String} {order : List Seq → List Seq} (ho : C44.Order order)
    {reread : Seq → List Seq} {str : Err → String} {ks : List Seq} {k k' i : Seq} (hk : k ∈ ks) (hk' : k' ∈ ks)
    (hne : k ≠ k') (e1 : indexOf m.env m.rep k = .ok i) (e2 : indexOf m.env m.rep k' = .ok i) {x : Read}
    (hv : x.valid = true) (hr : ∀ y ∈ ks ++ [x.label], reread y = [y]) {b : Block} {el : Eligible}
    (ht : s.env.testEligible s.rep s.actions x.label = .ok el) (hok : el.ok = true)
    (h : setAnnotateOne s.env s.rep s.actions m.actions (verdict m log order reread ks) str x = .ok b) :
    ∃ d, el.disp = some d ∧ b.out = d ++ " - Label collides with the LGR set labels" := by
  obtain ⟨-, h2⟩ := C110.set_out h
  rcases h2 with ⟨hv', -⟩ | ⟨-, el', d, ht', hd, h3⟩
  · rw [hv] at hv'; cases hv'
  · rw [ht] at ht'
    cases ht'
    rcases h3 with ⟨-, hok', -⟩ | ⟨-, -, -, -, v, h6, h7⟩
    · rw [hok] at hok'; cases hok'
    · rw [verdict_eq hr] at h6
      have := (C44.annotate_reports_partial _ _ order ho ks x.label v h6).2.2
        ⟨k, by simp [hk], k', by simp [hk'], hne, i, e1, e2⟩
      subst this
      exact ⟨d, hd, h7⟩

open C110 (read1) in
/-- So with a set that has a label and its variant. -/
example : AnnotateSet.annotate merged2 script2 (fun _ _ => "") List.dedup (fun l => [l]) (fun _ => "error")
    [read1 [1], read1 [2]] [read1 [3]] =
    ([.header, .footer, .block ⟨[3], "valid - Label collides with the LGR set labels", none, []⟩], .ok ()) := by
  decide +kernel

/-- Nine actions, of which the last rejects the labels. -/
def many : List Action :=
  List.replicate 8 { disp := "blocked", anyVariant := ["x"] } ++ [{ disp := "invalid", matchR := some "r" }]

open C110 (read1) in
/-- With more actions in the LGR of the script than in the merged LGR, the action that rejects a label is looked up
beyond the end of the list of actions. -/
theorem more_actions_wrong : ∃ m s : Tested, ∀ log reread str, ∃ labels : List Read,
    (∀ x ∈ labels, x.valid = true ∧ x.label ≠ []) ∧
    AnnotateSet.annotate m s log List.dedup reread str [] labels = ([.header, .footer], .error .indexError) :=
  ⟨merged2, ⟨C110.env1, script2.rep, many⟩, fun _ _ _ => ⟨[read1 [2]], by decide, by rfl⟩⟩

theorem defined2 : Defined merged2.env merged2.rep merged2.actions ∧ Defined script2.env script2.rep script2.actions :=
  ⟨⟨C01.wf_run _, ⟨fun _ _ _ _ _ _ _ => ⟨_, rfl⟩, fun _ _ _ _ _ _ _ _ _ => ⟨_, rfl⟩⟩, by intro l a ha; cases ha⟩,
    ⟨C01.wf_run _, ⟨fun _ _ _ _ _ _ _ => ⟨_, rfl⟩, fun _ _ _ _ _ _ _ _ _ => ⟨_, rfl⟩⟩, by intro l a ha; cases ha⟩⟩

example : C14.PrefixFree merged2.rep ∧ Unconditional merged2.rep ∧ SymmetricR merged2.rep ∧ TransitiveR merged2.rep :=
  ⟨prefixFree_of (C01.wf_run _) (by decide +kernel), unconditional_of (C01.wf_run _) (by decide +kernel),
    symmetric_of (C01.wf_run _) (by decide +kernel), transitive_of (C01.wf_run _) (by decide +kernel)⟩

open C110 (read1) in
/-- The hypotheses of the theorems are met. -/
example : C44.Order List.dedup ∧ (∀ x ∈ [read1 [1], bad2, read1 [9], read1 [3]],
    ∀ y ∈ [read1 [1], bad2, read1 [9], read1 [3]], x.valid = true → y.valid = true →
      Accepted merged2.env merged2.rep x.label → Accepted merged2.env merged2.rep y.label →
      ∀ i, indexOf merged2.env merged2.rep x.label = .ok i → indexOf merged2.env merged2.rep y.label = .ok i →
      x.label = y.label) ∧ script2.actions.length ≤ merged2.actions.length := by
  refine ⟨⟨List.nodup_dedup, fun l x => List.mem_dedup⟩, ?_, by decide⟩
  have h1 : indexOf merged2.env merged2.rep [1] = .ok [1] := by decide +kernel
  have h3 : indexOf merged2.env merged2.rep [3] = .ok [3] := by decide +kernel
  have h9 : ∀ i, indexOf merged2.env merged2.rep [9] ≠ .ok i := by
    intro i hi
    have : (indexOf merged2.env merged2.rep [9]).toOption = none := by decide +kernel
    rw [hi] at this; cases this
  intro x hx y hy hvx hvy _ _ i e1 e2
  simp only [List.mem_cons, List.not_mem_nil, or_false] at hx hy
  rcases hx with rfl | rfl | rfl | rfl <;> rcases hy with rfl | rfl | rfl | rfl <;>
    first
    | rfl
    | exact absurd hvx (by decide)
    | exact absurd hvy (by decide)
    | exact absurd e1 (h9 i)
    | exact absurd e2 (h9 i)
    | (have e1' := e1; have e2' := e2
       simp only [C110.read1] at e1' e2'
       first
       | (rw [h1] at e1'; rw [h3] at e2'; rw [← e1'] at e2'; exact absurd e2' (by decide))
       | (rw [h3] at e1'; rw [h1] at e2'; rw [← e1'] at e2'; exact absurd e2' (by decide)))

end Lgr.Props.C138
