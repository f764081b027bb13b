import Verif.Repertoire

/-!
# Helper lemmas on repertoires: structural invariant and point-wise effect of each mutator
-/

namespace Lgr
namespace Repertoire

/-- The character stored for a sequence, if any. -/
def lookup (r : Repertoire) (k : Seq) : Option CharObj :=
  match k with
  | [] => none
  | i :: _ => (r.bucket i).find? (fun c => c.cp == k)

/-- Invariant of one character in a repertoire. -/
structure CharWF (c : CharObj) : Prop where
  varWF : c.VarWF
  rangeCp : ∀ f l, c.range = some (f, l) → ∃ x, c.cp = [x] ∧ f ≤ x ∧ x ≤ l

/-- Structural invariant of `_chardict`. -/
structure WF (r : Repertoire) : Prop where
  keys : (r.dict.map Prod.fst).Nodup
  nonempty : ∀ p ∈ r.dict, p.2 ≠ []
  filed : ∀ p ∈ r.dict, ∀ c ∈ p.2, ∃ t, c.cp = p.1 :: t
  uniq : ∀ p ∈ r.dict, (p.2.map CharObj.cp).Nodup
  chars : ∀ p ∈ r.dict, ∀ c ∈ p.2, CharWF c

theorem wf_empty : WF {} := ⟨by simp, by simp, by simp, by simp, by simp⟩

theorem wf_ranges {r : Repertoire} (h : WF r) (rs) : WF { r with ranges := rs } :=
  ⟨h.keys, h.nonempty, h.filed, h.uniq, h.chars⟩

@[simp] theorem lookup_ranges (r : Repertoire) (rs) (k) :
    lookup { r with ranges := rs } k = lookup r k := rfl

theorem bucket_mem {r : Repertoire} {i : Nat} {c : CharObj} (h : c ∈ r.bucket i) :
    ∃ p ∈ r.dict, p.1 = i ∧ c ∈ p.2 := by
  unfold bucket at h
  cases hd : dget r.dict i with
  | none => simp [hd] at h
  | some l => simp [hd] at h; exact ⟨_, mem_of_dget hd, rfl, h⟩

theorem bucket_uniq {r : Repertoire} (h : WF r) (i : Nat) :
    ((r.bucket i).map CharObj.cp).Nodup := by
  unfold bucket
  cases hd : dget r.dict i with
  | none => simp
  | some l => simpa using h.uniq _ (mem_of_dget hd)

theorem find_cp_iff {l : List CharObj} (h : (l.map CharObj.cp).Nodup) {k : Seq} {c : CharObj} :
    l.find? (fun c => c.cp == k) = some c ↔ c ∈ l ∧ c.cp = k := by
  constructor
  · intro hf
    exact ⟨List.mem_of_find?_eq_some hf, by simpa using List.find?_some hf⟩
  · rintro ⟨hm, hk⟩
    induction l with
    | nil => simp at hm
    | cons w l ih =>
      simp only [List.map_cons, List.nodup_cons] at h
      rcases List.mem_cons.1 hm with rfl | hm
      · simp [hk]
      · have : w.cp ≠ k := by
          intro hw; apply h.1; rw [hw, ← hk]; exact List.mem_map_of_mem hm
        simp [this, ih h.2 hm]

theorem find_cp_none {l : List CharObj} {k : Seq} :
    l.find? (fun c => c.cp == k) = none ↔ k ∉ l.map CharObj.cp := by
  simp [List.find?_eq_none]

theorem lookup_eq_some {r : Repertoire} (h : WF r) {k : Seq} {c : CharObj} :
    r.lookup k = some c ↔ ∃ i t, k = i :: t ∧ c ∈ r.bucket i ∧ c.cp = k := by
  cases k with
  | nil => simp [lookup]
  | cons i t =>
    simp only [lookup, find_cp_iff (bucket_uniq h i)]
    constructor
    · rintro ⟨h1, h2⟩; exact ⟨i, t, rfl, h1, h2⟩
    · rintro ⟨_, _, he, h1, h2⟩; cases he; exact ⟨h1, h2⟩

theorem lookup_cp {r : Repertoire} {k : Seq} {c : CharObj}
    (hl : r.lookup k = some c) : c.cp = k := by
  cases k with
  | nil => simp [lookup] at hl
  | cons i t => simpa using List.find?_some hl

theorem lookup_eq_none {r : Repertoire} {i : Nat} {t : Seq} :
    r.lookup (i :: t) = none ↔ (i :: t) ∉ (r.bucket i).map CharObj.cp := by
  simp only [lookup, find_cp_none]

@[simp] theorem lookup_nil (r : Repertoire) : r.lookup [] = none := rfl

theorem hasCp_iff (r : Repertoire) (k : Seq) : r.hasCp k = true ↔ (r.lookup k).isSome := by
  cases k with
  | nil => simp [hasCp, lookup]
  | cons i t =>
    unfold hasCp lookup bucket
    cases hd : dget r.dict i with
    | none => simp [hd]
    | some l => simp [hd]

theorem getChar_eq {r : Repertoire} {k : Seq} :
    r.getChar k = match k with
      | [] => .error .assertion
      | _ :: _ => match r.lookup k with
        | some c => .ok c
        | none => .error (.notInLGR k) := by
  cases k with
  | nil => rfl
  | cons i t =>
    unfold getChar lookup bucket
    cases hd : dget r.dict i with
    | none => simp [hd]
    | some l =>
      simp only [hd, Option.getD_some]
      cases l.find? (fun c => c.cp == i :: t) <;> rfl

theorem getChar_ok {r : Repertoire} {k : Seq} {c : CharObj} :
    r.getChar k = .ok c ↔ r.lookup k = some c := by
  rw [getChar_eq]
  cases k with
  | nil => simp
  | cons i t => cases r.lookup (i :: t) <;> simp

theorem getChar_error {r : Repertoire} {k : Seq} {e : Err} (hk : k ≠ []) :
    r.getChar k = .error e ↔ r.lookup k = none ∧ e = .notInLGR k := by
  rw [getChar_eq]
  cases k with
  | nil => simp at hk
  | cons i t => cases r.lookup (i :: t) <;> simp [eq_comm]

theorem bucket_dset (r : Repertoire) (i j : Nat) (l : List CharObj) (rs) :
    bucket { ranges := rs, dict := dset r.dict i l } j = if i = j then l else r.bucket j := by
  simp only [bucket, dget_dset]; split <;> simp

theorem bucket_ddel {r : Repertoire} (h : (r.dict.map Prod.fst).Nodup) (i j : Nat) (rs) :
    bucket { ranges := rs, dict := ddel r.dict i } j = if i = j then [] else r.bucket j := by
  simp only [bucket, dget_ddel h]; split <;> simp

/-! ### `_add_char` -/

theorem addCharObj_form {r r' : Repertoire} {c : CharObj} (he : r.addCharObj c = .ok r') :
    ∃ i t, c.cp = i :: t ∧ r'.ranges = r.ranges ∧
      r'.dict = dset r.dict i (r.bucket i ++ [c]) ∧ c.cp ∉ (r.bucket i).map CharObj.cp := by
  unfold addCharObj at he
  split at he
  · simp at he
  rename_i i t hcp
  refine ⟨i, t, hcp, ?_⟩
  unfold bucket
  split at he
  · rename_i l hd
    split at he
    · simp at he
    rename_i hm
    injection he with he; subst he
    exact ⟨rfl, by simp [hd], by simpa [hd] using hm⟩
  · rename_i hd
    injection he with he; subst he
    exact ⟨rfl, by simp [hd], by simp [hd]⟩

theorem addCharObj_ok_iff {r : Repertoire} {c : CharObj} (hc : c.cp ≠ []) :
    (∃ r', r.addCharObj c = .ok r') ↔ r.lookup c.cp = none := by
  unfold addCharObj
  cases hcp : c.cp with
  | nil => exact absurd hcp hc
  | cons i t =>
    rw [lookup_eq_none]
    unfold bucket
    cases hd : dget r.dict i with
    | none => simp [hd]
    | some l =>
      by_cases hm : (i :: t) ∈ l.map CharObj.cp
      · simp only [hd, hm, if_true, Option.getD_some, not_true]; simp
      · simp only [hd, hm, if_false, Option.getD_some, not_false_iff]; simp

theorem addCharObj_error {r : Repertoire} {c : CharObj} (hc : c.cp ≠ []) {e : Err}
    (he : r.addCharObj c = .error e) :
    (r.lookup c.cp).isSome ∧ e = .charAlreadyExists c.cp := by
  have h1 : ¬ r.lookup c.cp = none := by
    rw [← addCharObj_ok_iff hc]; rintro ⟨r', hr'⟩; rw [hr'] at he; simp at he
  refine ⟨Option.isSome_iff_ne_none.2 h1, ?_⟩
  unfold addCharObj at he
  split at he
  · rename_i h; exact absurd h hc
  split at he
  · split at he
    · injection he with he; exact he.symm
    · simp at he
  · simp at he

theorem addCharObj_wf {r r' : Repertoire} {c : CharObj} (h : WF r) (hc : CharWF c)
    (he : r.addCharObj c = .ok r') : WF r' := by
  obtain ⟨i, t, hcp, _, hd, hm⟩ := addCharObj_form he
  refine ⟨?_, ?_, ?_, ?_, ?_⟩
  · rw [hd]; exact dset_nodup h.keys _ _
  · intro p hp; rw [hd] at hp
    rcases mem_dset hp with rfl | hp
    · simp
    · exact h.nonempty p hp
  · intro p hp x hx; rw [hd] at hp
    rcases mem_dset hp with rfl | hp
    · simp at hx
      rcases hx with hx | rfl
      · obtain ⟨q, hq, hqi, hxq⟩ := bucket_mem hx
        obtain ⟨t', ht'⟩ := h.filed q hq x hxq
        exact ⟨t', by rw [ht', hqi]⟩
      · exact ⟨t, hcp⟩
    · exact h.filed p hp x hx
  · intro p hp; rw [hd] at hp
    rcases mem_dset hp with rfl | hp
    · simp only [List.map_append, List.map_cons, List.map_nil]
      rw [List.nodup_append]
      refine ⟨bucket_uniq h i, by simp, ?_⟩
      intro a ha b hb; simp at hb; subst hb; rintro rfl; exact hm ha
    · exact h.uniq p hp
  · intro p hp x hx; rw [hd] at hp
    rcases mem_dset hp with rfl | hp
    · simp at hx
      rcases hx with hx | rfl
      · obtain ⟨q, hq, _, hxq⟩ := bucket_mem hx
        exact h.chars q hq x hxq
      · exact hc
    · exact h.chars p hp x hx

theorem lookup_addCharObj {r r' : Repertoire} {c : CharObj}
    (he : r.addCharObj c = .ok r') (k : Seq) :
    r'.lookup k = if k = c.cp then some c else r.lookup k := by
  obtain ⟨i, t, hcp, _, hd, hm⟩ := addCharObj_form he
  cases k with
  | nil => simp [hcp]
  | cons j s =>
    have hb : r'.bucket j = if i = j then r.bucket i ++ [c] else r.bucket j := by
      have := bucket_dset r i j (r.bucket i ++ [c]) r'.ranges
      rw [← hd] at this; exact this
    simp only [lookup, hb]
    by_cases hij : i = j
    · subst hij
      simp only [if_true, List.find?_append]
      by_cases hk : i :: s = c.cp
      · rw [if_pos hk, hk, find_cp_none.2 hm]; simp
      · rw [if_neg hk]
        cases hf : (r.bucket i).find? (fun c => c.cp == i :: s) with
        | some d => simp
        | none =>
          have : c.cp ≠ i :: s := fun h => hk h.symm
          simp [this]
    · have : ¬ (j :: s = c.cp) := by rw [hcp]; intro h; injection h with h; exact hij h.symm
      simp [hij, this]

/-! ### `_del_char` -/

theorem removeCp_sublist (k) (l : List CharObj) : (removeCp k l).Sublist l := by
  induction l with
  | nil => simp [removeCp]
  | cons w l ih =>
    by_cases h : w.cp = k
    · simp [removeCp, h]
    · simp [removeCp, h, ih]

theorem mem_removeCp {k} {l : List CharObj} (h : (l.map CharObj.cp).Nodup) (v : CharObj) :
    v ∈ removeCp k l ↔ v ∈ l ∧ v.cp ≠ k := by
  induction l with
  | nil => simp [removeCp]
  | cons w vs ih =>
    simp only [List.map_cons, List.nodup_cons] at h
    by_cases hw : w.cp = k
    · simp only [removeCp, hw, if_true, List.mem_cons]
      constructor
      · intro hv
        refine ⟨Or.inr hv, ?_⟩
        intro hk; apply h.1; rw [hw, ← hk]; exact List.mem_map_of_mem hv
      · rintro ⟨rfl | hv, hk⟩
        · exact absurd hw hk
        · exact hv
    · simp only [removeCp, hw, if_false, List.mem_cons, ih h.2]
      constructor
      · rintro (rfl | ⟨h1, h2⟩)
        · exact ⟨Or.inl rfl, hw⟩
        · exact ⟨Or.inr h1, h2⟩
      · rintro ⟨rfl | h1, h2⟩
        · exact Or.inl rfl
        · exact Or.inr ⟨h1, h2⟩

theorem delCharObj_form {r r' : Repertoire} {k : Seq} (h : WF r)
    (he : r.delCharObj k = some r') :
    ∃ i t, k = i :: t ∧ r'.ranges = r.ranges ∧ k ∈ (r.bucket i).map CharObj.cp ∧
      (∀ j, r'.bucket j = if i = j then removeCp k (r.bucket i) else r.bucket j) ∧
      (r'.dict = ddel r.dict i ∨
        (removeCp k (r.bucket i) ≠ [] ∧ r'.dict = dset r.dict i (removeCp k (r.bucket i)))) := by
  unfold delCharObj at he
  split at he
  · simp at he
  rename_i i t
  split at he
  · rename_i l hd
    have hbk : r.bucket i = l := by simp [bucket, hd]
    split at he
    · rename_i hm
      simp only at he
      split at he
      · rename_i hnil
        injection he with he; subst he
        refine ⟨i, t, rfl, rfl, by rw [hbk]; exact hm, ?_, Or.inl rfl⟩
        intro j; rw [bucket_ddel h.keys, hbk, hnil]
      · rename_i hne
        injection he with he; subst he
        refine ⟨i, t, rfl, rfl, by rw [hbk]; exact hm, ?_, Or.inr ⟨by rw [hbk]; exact hne, by rw [hbk]⟩⟩
        intro j; rw [bucket_dset, hbk]
    · simp at he
  · simp at he

theorem delCharObj_isSome {r : Repertoire} {k : Seq} :
    (r.delCharObj k).isSome ↔ (r.lookup k).isSome := by
  cases k with
  | nil => simp [delCharObj]
  | cons i t =>
    rw [← hasCp_iff]
    unfold delCharObj hasCp
    cases hd : dget r.dict i with
    | none => simp [hd]
    | some l =>
      by_cases hm : (i :: t) ∈ l.map CharObj.cp
      · simp only [hd, hm, if_true]
        split <;> simp
      · simp only [hd, hm, if_false]; simp

theorem lookup_delCharObj {r r' : Repertoire} {k : Seq} (h : WF r)
    (he : r.delCharObj k = some r') (x : Seq) :
    r'.lookup x = if x = k then none else r.lookup x := by
  obtain ⟨i, t, rfl, _, hm, hb, _⟩ := delCharObj_form h he
  cases x with
  | nil => simp
  | cons j s =>
    simp only [lookup, hb]
    by_cases hij : i = j
    · subst hij
      simp only [if_true]
      have hu := bucket_uniq h i
      have hu' : ((removeCp (i :: t) (r.bucket i)).map CharObj.cp).Nodup :=
        hu.sublist ((removeCp_sublist _ _).map _)
      apply Option.ext
      intro c
      rw [find_cp_iff hu', mem_removeCp hu]
      by_cases hk : i :: s = i :: t
      · rw [if_pos hk]; simp only [reduceCtorEq, iff_false]
        rintro ⟨⟨_, h1⟩, h2⟩; exact h1 (h2.trans hk)
      · rw [if_neg hk, find_cp_iff hu]
        constructor
        · rintro ⟨⟨h1, _⟩, h2⟩; exact ⟨h1, h2⟩
        · rintro ⟨h1, h2⟩; exact ⟨⟨h1, by rw [h2]; exact hk⟩, h2⟩
    · have : ¬ (j :: s = i :: t) := by intro h; injection h with h; exact hij h.symm
      simp only [hij, this, if_false]

theorem delCharObj_wf {r r' : Repertoire} {k : Seq} (h : WF r)
    (he : r.delCharObj k = some r') : WF r' := by
  obtain ⟨i, t, rfl, _, hm, hb, hd⟩ := delCharObj_form h he
  rcases hd with hd | ⟨hne, hd⟩
  · have hs := ddel_sublist r.dict i
    exact ⟨by rw [hd]; exact ddel_nodup h.keys _,
      fun p hp => h.nonempty p (hs.subset (hd ▸ hp)),
      fun p hp => h.filed p (hs.subset (hd ▸ hp)),
      fun p hp => h.uniq p (hs.subset (hd ▸ hp)),
      fun p hp => h.chars p (hs.subset (hd ▸ hp))⟩
  · have hs := removeCp_sublist (i :: t) (r.bucket i)
    refine ⟨by rw [hd]; exact dset_nodup h.keys _ _, ?_, ?_, ?_, ?_⟩
    · intro p hp; rw [hd] at hp
      rcases mem_dset hp with rfl | hp
      · exact hne
      · exact h.nonempty p hp
    · intro p hp x hx; rw [hd] at hp
      rcases mem_dset hp with rfl | hp
      · obtain ⟨q, hq, hqi, hxq⟩ := bucket_mem (hs.subset hx)
        obtain ⟨t', ht'⟩ := h.filed q hq x hxq
        exact ⟨t', by rw [ht', hqi]⟩
      · exact h.filed p hp x hx
    · intro p hp; rw [hd] at hp
      rcases mem_dset hp with rfl | hp
      · exact (bucket_uniq h i).sublist (hs.map _)
      · exact h.uniq p hp
    · intro p hp x hx; rw [hd] at hp
      rcases mem_dset hp with rfl | hp
      · obtain ⟨q, hq, _, hxq⟩ := bucket_mem (hs.subset hx)
        exact h.chars q hq x hxq
      · exact h.chars p hp x hx

/-! ### in-place modification of a character -/

theorem putChar_bucket {r : Repertoire} {c : CharObj} {i : Nat} {t : Seq} (hc : c.cp = i :: t)
    (j : Nat) : (r.putChar c).bucket j =
      (r.bucket j).map (fun d => if d.cp = c.cp then c else d) ∨
      (i ≠ j ∧ (r.putChar c).bucket j = r.bucket j) := by
  unfold putChar
  rw [hc]; simp only
  cases hd : dget r.dict i with
  | none =>
    by_cases hij : i = j
    · subst hij; left; simp [bucket, hd]
    · right; exact ⟨hij, rfl⟩
  | some l =>
    simp only
    rw [bucket_dset]
    by_cases hij : i = j
    · subst hij; left; simp [bucket, hd]
    · right; exact ⟨hij, by simp [hij]⟩

theorem find_map_put (l : List CharObj) (c : CharObj) (x : Seq) :
    (l.map (fun d => if d.cp = c.cp then c else d)).find? (fun d => d.cp == x) =
      if x = c.cp then (if c.cp ∈ l.map CharObj.cp then some c else none)
      else l.find? (fun d => d.cp == x) := by
  induction l with
  | nil => simp
  | cons d l ih =>
    simp only [List.map_cons, List.find?_cons]
    by_cases hd : d.cp = c.cp
    · by_cases hx : x = c.cp
      · simp [hd, hx]
      · have h1 : ¬ c.cp = x := fun h => hx h.symm
        have : ¬ d.cp = x := by rw [hd]; exact h1
        have hb : (c.cp == x) = false := by simpa using h1
        simp only [hd, if_true, hb, hx, if_false, ih]
    · by_cases hx : x = c.cp
      · subst hx
        have : ¬ c.cp = d.cp := fun h => hd h.symm
        simp only [hd, if_false, beq_iff_eq, Bool.false_eq_true]
        have hb : (d.cp == c.cp) = false := by simpa using hd
        rw [hb]; simp only [ih, if_true, List.mem_cons, this, false_or]
      · simp only [hd, if_false, hx, ih]

theorem lookup_putChar {r : Repertoire} {c : CharObj} (hc : (r.lookup c.cp).isSome) (x : Seq) :
    (r.putChar c).lookup x = if x = c.cp then some c else r.lookup x := by
  cases hcp : c.cp with
  | nil => rw [hcp] at hc; simp at hc
  | cons i t =>
    have hmem : c.cp ∈ (r.bucket i).map CharObj.cp := by
      by_contra hn
      rw [hcp] at hn
      rw [← lookup_eq_none] at hn
      rw [hcp, hn] at hc; simp at hc
    cases x with
    | nil => simp
    | cons j s =>
      rcases putChar_bucket (r := r) hcp j with hb | ⟨hij, hb⟩
      · simp only [lookup, hb, find_map_put]
        rw [hcp]
        by_cases hk : j :: s = i :: t
        · rw [if_pos hk, if_pos hk]
          injection hk with hk _; subst hk
          rw [hcp] at hmem
          rw [if_pos hmem]
        · rw [if_neg hk, if_neg hk]
      · have : ¬ (j :: s = i :: t) := by intro h; injection h with h; exact hij h.symm
        simp only [lookup, hb, this, if_false]

theorem putChar_ranges (r : Repertoire) (c : CharObj) : (r.putChar c).ranges = r.ranges := by
  unfold putChar; split
  · rfl
  · split <;> rfl

theorem putChar_wf {r : Repertoire} {c : CharObj} (h : WF r) (hc : CharWF c) : WF (r.putChar c) := by
  unfold putChar
  split
  · exact h
  rename_i i t hcp
  split
  · exact h
  rename_i l hd
  have hm := mem_of_dget hd
  refine ⟨dset_nodup h.keys _ _, ?_, ?_, ?_, ?_⟩
  · intro p hp
    rcases mem_dset hp with rfl | hp
    · simpa using h.nonempty _ hm
    · exact h.nonempty p hp
  · intro p hp x hx
    rcases mem_dset hp with rfl | hp
    · simp only [List.mem_map] at hx
      obtain ⟨d, hd', rfl⟩ := hx
      split
      · exact ⟨t, hcp⟩
      · exact h.filed _ hm d hd'
    · exact h.filed p hp x hx
  · intro p hp
    rcases mem_dset hp with rfl | hp
    · have : (l.map (fun d => if d.cp = c.cp then c else d)).map CharObj.cp = l.map CharObj.cp := by
        rw [List.map_map]
        apply List.map_congr_left
        intro d _
        simp only [Function.comp]
        split
        · rename_i he; exact he.symm
        · rfl
      simp only
      rw [this]; exact h.uniq _ hm
    · exact h.uniq p hp
  · intro p hp x hx
    rcases mem_dset hp with rfl | hp
    · simp only [List.mem_map] at hx
      obtain ⟨d, hd', rfl⟩ := hx
      split
      · exact hc
      · exact h.chars _ hm d hd'
    · exact h.chars p hp x hx

theorem lookup_charWF {r : Repertoire} (h : WF r) {k : Seq} {c : CharObj}
    (hl : r.lookup k = some c) : CharWF c := by
  obtain ⟨i, t, _, hm, _⟩ := (lookup_eq_some h).1 hl
  obtain ⟨p, hp, _, hc⟩ := bucket_mem hm
  exact h.chars p hp c hc

/-! ### all characters -/

theorem mem_allChars {r : Repertoire} (h : WF r) (c : CharObj) :
    c ∈ r.allChars ↔ r.lookup c.cp = some c := by
  unfold allChars
  rw [lookup_eq_some h, List.mem_flatMap]
  constructor
  · rintro ⟨p, hp, hc⟩
    obtain ⟨t, ht⟩ := h.filed p hp c hc
    refine ⟨p.1, t, ht, ?_, rfl⟩
    have : dget r.dict p.1 = some p.2 := dget_of_mem h.keys hp
    simp [bucket, this, hc]
  · rintro ⟨i, t, _, hm, _⟩
    obtain ⟨p, hp, _, hc⟩ := bucket_mem hm
    exact ⟨p, hp, hc⟩

theorem allChars_nodup {r : Repertoire} (h : WF r) : (r.allChars.map CharObj.cp).Nodup := by
  unfold allChars
  rw [List.map_flatMap, List.nodup_flatMap]
  refine ⟨fun p hp => h.uniq p hp, ?_⟩
  have hk : r.dict.Pairwise (fun a b => a.1 ≠ b.1) := List.pairwise_map.1 h.keys
  refine hk.imp_of_mem ?_
  intro a b ha hb hab
  simp only [Function.onFun, List.disjoint_left]
  intro x hx hx'
  obtain ⟨c, hc, rfl⟩ := List.mem_map.1 hx
  obtain ⟨d, hd, hdc⟩ := List.mem_map.1 hx'
  obtain ⟨t, ht⟩ := h.filed a ha c hc
  obtain ⟨s, hs⟩ := h.filed b hb d hd
  rw [ht, hs] at hdc
  injection hdc with h1; exact hab h1.symm

theorem len_eq (r : Repertoire) : r.len = r.allChars.length := by
  simp [len, allChars, List.length_flatMap]

theorem mem_cpRange {f l x : Nat} : x ∈ cpRange f l ↔ f ≤ x ∧ x ≤ l := by
  simp only [cpRange, List.mem_range'_1]; omega

/-! ### range loops -/

theorem cpRange_nodup (f l : Nat) : (cpRange f l).Nodup := List.nodup_range'

/-- The elements before `x` in `cpRange f l` are the smaller ones. -/
theorem cpRange_split {f l x : Nat} {pre post : List Nat} (h : cpRange f l = pre ++ x :: post)
    (y : Nat) : y ∈ pre ↔ f ≤ y ∧ y < x := by
  have hp : (cpRange f l).Pairwise (· < ·) := List.pairwise_lt_range'
  have hx : x ∈ cpRange f l := by rw [h]; simp
  have hx' := mem_cpRange.1 hx
  rw [h, List.pairwise_append] at hp
  obtain ⟨_, h2, h3⟩ := hp
  rw [List.pairwise_cons] at h2
  constructor
  · intro hy
    have : y ∈ cpRange f l := by rw [h]; simp [hy]
    exact ⟨(mem_cpRange.1 this).1, h3 y hy x (by simp)⟩
  · rintro ⟨h4, h5⟩
    have : y ∈ cpRange f l := mem_cpRange.2 ⟨h4, by omega⟩
    rw [h] at this
    simp only [List.mem_append, List.mem_cons] at this
    rcases this with h6 | h6 | h6
    · exact h6
    · omega
    · have := h2.1 y h6; omega

/-- The character inserted for each code point of a range. -/
def rangeChar (f l : Nat) (a : Attrs) (x : Nat) : CharObj :=
  { cp := [x], range := some (f, l), attrs := a }

theorem rangeChar_wf {f l x : Nat} (a : Attrs) (h : f ≤ x ∧ x ≤ l) : CharWF (rangeChar f l a x) := by
  refine ⟨CharObj.varWF_mk, ?_⟩
  intro f' l' he
  simp only [rangeChar, Option.some.injEq, Prod.mk.injEq] at he
  exact ⟨x, rfl, by omega, by omega⟩

theorem addRangeLoop_spec {f l : Nat} {a : Attrs} (cps : List Nat)
    (hin : ∀ x ∈ cps, f ≤ x ∧ x ≤ l) (hn : cps.Nodup) (r : Repertoire) (h : WF r) :
    WF (addRangeLoop f l a r cps).1 ∧
    (addRangeLoop f l a r cps).1.ranges = r.ranges ∧
    (((addRangeLoop f l a r cps).2 = .ok () ∧ (∀ x ∈ cps, r.lookup [x] = none) ∧
        ∀ k, (addRangeLoop f l a r cps).1.lookup k =
          if ∃ x ∈ cps, k = [x] then some (rangeChar f l a (k.headD 0)) else r.lookup k) ∨
     (∃ pre x post, cps = pre ++ x :: post ∧ (r.lookup [x]).isSome ∧
        (addRangeLoop f l a r cps).2 = .error (.charAlreadyExists [x]) ∧
        (∀ y ∈ pre, r.lookup [y] = none) ∧
        ∀ k, (addRangeLoop f l a r cps).1.lookup k =
          if ∃ y ∈ pre, k = [y] then some (rangeChar f l a (k.headD 0)) else r.lookup k)) := by
  induction cps generalizing r with
  | nil => simp [addRangeLoop, h]
  | cons c cps ih =>
    simp only [List.nodup_cons] at hn
    cases he : r.addCharObj (rangeChar f l a c) with
    | ok r' =>
      have hstep : addRangeLoop f l a r (c :: cps) = addRangeLoop f l a r' cps := by
        simp only [addRangeLoop]; rw [rangeChar] at he; rw [he]
      rw [hstep]
      have hwf' := addCharObj_wf h (rangeChar_wf a (hin c (by simp))) he
      have hlk := lookup_addCharObj he
      have hnone : r.lookup [c] = none :=
        (addCharObj_ok_iff (c := rangeChar f l a c) (by simp [rangeChar])).1 ⟨r', he⟩
      obtain ⟨_, _, _, hr', _, _⟩ := addCharObj_form he
      obtain ⟨i1, i2, i3⟩ := ih (fun x hx => hin x (by simp [hx])) hn.2 r' hwf'
      refine ⟨i1, i2.trans hr', ?_⟩
      have hne : ∀ x ∈ cps, r'.lookup [x] = r.lookup [x] := by
        intro x hx
        rw [hlk]
        have : ¬ [x] = (rangeChar f l a c).cp := by
          simp only [rangeChar, List.cons.injEq, and_true]; rintro rfl; exact hn.1 hx
        rw [if_neg this]
      rcases i3 with ⟨j1, j2, j3⟩ | ⟨pre, x, post, j1, j2, j3, j4, j5⟩
      · left
        refine ⟨j1, ?_, ?_⟩
        · intro x hx
          rcases List.mem_cons.1 hx with rfl | hx
          · exact hnone
          · rw [← hne x hx]; exact j2 x hx
        · intro k
          rw [j3, hlk]
          by_cases h1 : ∃ x ∈ cps, k = [x]
          · rw [if_pos h1, if_pos]
            obtain ⟨x, hx, hk⟩ := h1; exact ⟨x, by simp [hx], hk⟩
          · rw [if_neg h1]
            by_cases h2 : k = [c]
            · subst h2
              rw [if_pos (by simp [rangeChar]), if_pos ⟨c, by simp, rfl⟩]; rfl
            · rw [if_neg (by simpa [rangeChar] using h2), if_neg]
              rintro ⟨x, hx, hk⟩
              rcases List.mem_cons.1 hx with rfl | hx
              · exact h2 hk
              · exact h1 ⟨x, hx, hk⟩
      · right
        refine ⟨c :: pre, x, post, by simp [j1], ?_, j3, ?_, ?_⟩
        · rw [← hne x (by simp [j1])]; exact j2
        · intro y hy
          rcases List.mem_cons.1 hy with rfl | hy
          · exact hnone
          · rw [← hne y (by simp [j1, hy])]; exact j4 y hy
        · intro k
          rw [j5, hlk]
          by_cases h1 : ∃ x ∈ pre, k = [x]
          · rw [if_pos h1, if_pos]
            obtain ⟨x, hx, hk⟩ := h1; exact ⟨x, by simp [hx], hk⟩
          · rw [if_neg h1]
            by_cases h2 : k = [c]
            · subst h2
              rw [if_pos (by simp [rangeChar]), if_pos ⟨c, by simp, rfl⟩]; rfl
            · rw [if_neg (by simpa [rangeChar] using h2), if_neg]
              rintro ⟨x, hx, hk⟩
              rcases List.mem_cons.1 hx with rfl | hx
              · exact h2 hk
              · exact h1 ⟨x, hx, hk⟩
    | error e =>
      have hstep : addRangeLoop f l a r (c :: cps) = (r, .error e) := by
        simp only [addRangeLoop]; rw [rangeChar] at he; rw [he]
      rw [hstep]
      obtain ⟨h1, h2⟩ := addCharObj_error (by simp [rangeChar]) he
      refine ⟨h, rfl, Or.inr ⟨[], c, cps, by simp, h1, ?_, by simp, by simp⟩⟩
      rw [h2]; rfl

theorem delRangeLoop_spec (cps : List Nat) (hn : cps.Nodup) (r : Repertoire) (h : WF r) :
    WF (delRangeLoop r cps).1 ∧
    (delRangeLoop r cps).1.ranges = r.ranges ∧
    (((delRangeLoop r cps).2 = .ok () ∧ (∀ x ∈ cps, (r.lookup [x]).isSome) ∧
        ∀ k, (delRangeLoop r cps).1.lookup k = if ∃ x ∈ cps, k = [x] then none else r.lookup k) ∨
     (∃ pre x post, cps = pre ++ x :: post ∧ r.lookup [x] = none ∧
        (delRangeLoop r cps).2 = .error (.notInLGR [x]) ∧
        (∀ y ∈ pre, (r.lookup [y]).isSome) ∧
        ∀ k, (delRangeLoop r cps).1.lookup k = if ∃ y ∈ pre, k = [y] then none else r.lookup k)) := by
  induction cps generalizing r with
  | nil => simp [delRangeLoop, h]
  | cons c cps ih =>
    simp only [List.nodup_cons] at hn
    cases he : r.delCharObj [c] with
    | some r' =>
      have hstep : delRangeLoop r (c :: cps) = delRangeLoop r' cps := by
        simp only [delRangeLoop, he]
      rw [hstep]
      have hwf' := delCharObj_wf h he
      have hlk := lookup_delCharObj h he
      have hsome : (r.lookup [c]).isSome := delCharObj_isSome.1 (by simp [he])
      obtain ⟨_, _, _, hr', _, _⟩ := delCharObj_form h he
      obtain ⟨i1, i2, i3⟩ := ih hn.2 r' hwf'
      refine ⟨i1, i2.trans hr', ?_⟩
      have hne : ∀ x ∈ cps, r'.lookup [x] = r.lookup [x] := by
        intro x hx
        rw [hlk]
        have : ¬ [x] = [c] := by
          simp only [List.cons.injEq, and_true]; rintro rfl; exact hn.1 hx
        rw [if_neg this]
      rcases i3 with ⟨j1, j2, j3⟩ | ⟨pre, x, post, j1, j2, j3, j4, j5⟩
      · left
        refine ⟨j1, ?_, ?_⟩
        · intro x hx
          rcases List.mem_cons.1 hx with rfl | hx
          · exact hsome
          · rw [← hne x hx]; exact j2 x hx
        · intro k
          rw [j3, hlk]
          by_cases h1 : ∃ x ∈ cps, k = [x]
          · rw [if_pos h1, if_pos]
            obtain ⟨x, hx, hk⟩ := h1; exact ⟨x, by simp [hx], hk⟩
          · rw [if_neg h1]
            by_cases h2 : k = [c]
            · rw [if_pos h2, if_pos ⟨c, by simp, h2⟩]
            · rw [if_neg h2, if_neg]
              rintro ⟨x, hx, hk⟩
              rcases List.mem_cons.1 hx with rfl | hx
              · exact h2 hk
              · exact h1 ⟨x, hx, hk⟩
      · right
        refine ⟨c :: pre, x, post, by simp [j1], ?_, j3, ?_, ?_⟩
        · rw [← hne x (by simp [j1])]; exact j2
        · intro y hy
          rcases List.mem_cons.1 hy with rfl | hy
          · exact hsome
          · rw [← hne y (by simp [j1, hy])]; exact j4 y hy
        · intro k
          rw [j5, hlk]
          by_cases h1 : ∃ x ∈ pre, k = [x]
          · rw [if_pos h1, if_pos]
            obtain ⟨x, hx, hk⟩ := h1; exact ⟨x, by simp [hx], hk⟩
          · rw [if_neg h1]
            by_cases h2 : k = [c]
            · rw [if_pos h2, if_pos ⟨c, by simp, h2⟩]
            · rw [if_neg h2, if_neg]
              rintro ⟨x, hx, hk⟩
              rcases List.mem_cons.1 hx with rfl | hx
              · exact h2 hk
              · exact h1 ⟨x, hx, hk⟩
    | none =>
      have hstep : delRangeLoop r (c :: cps) = (r, .error (.notInLGR [c])) := by
        simp only [delRangeLoop, he]
      rw [hstep]
      have : r.lookup [c] = none := by
        by_contra hc
        have := delCharObj_isSome.2 (Option.isSome_iff_ne_none.2 hc)
        simp [he] at this
      exact ⟨h, rfl, Or.inr ⟨[], c, cps, by simp, this, rfl, by simp, by simp⟩⟩

theorem sortRanges_perm (l) : (sortRanges l).Perm l := List.perm_insertionSort _ _

theorem overlapLoop_iff (f l : Nat) (rs : List (Nat × Nat)) :
    overlapLoop f l rs = true ↔
      ∃ p ∈ rs, (f ≤ p.2 ∧ p.1 ≤ l) ∧ (p.1 ≤ f ∨ l ≤ p.2) := by
  induction rs with
  | nil => simp [overlapLoop]
  | cons p rs ih =>
    obtain ⟨a, b⟩ := p
    simp only [overlapLoop, List.exists_mem_cons_iff]
    split
    · rw [ih]
      constructor
      · exact Or.inr
      · rintro (h | h)
        · omega
        · exact h
    · split
      · simp only [true_iff]; left; omega
      · rw [ih]
        constructor
        · exact Or.inr
        · rintro (h | h)
          · omega
          · exact h

end Repertoire
end Lgr
