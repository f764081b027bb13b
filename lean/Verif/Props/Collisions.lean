import Verif.Collisions
import Mathlib.Data.List.Dedup
import Mathlib.Data.List.Nodup

/-!
# C32, C33: collision groups and their dump
-/

namespace Lgr.Props.C32
open Lgr Collisions

/-- A label to be filed: category, index. -/
structure Input where
  cp : Seq
  cat : Cat
  idx : Seq

/-- The labels with this category that have an index. -/
def ofLabels (index : Seq → Except Err Seq) (cat : Cat) (ls : List Seq) : List Input :=
  ls.filterMap (fun l => match index l with | .ok k => some ⟨l, cat, k⟩ | .error _ => none)

def ofCached (cs : List (Seq × Except String Seq)) : List Input :=
  cs.filterMap (fun c => match c.2 with | .ok k => some ⟨c.1, .primary, k⟩ | .error _ => none)

/-- All that is filed: the labels, the cached labels, the TLDs that are not labels. -/
def inputs (index : Seq → Except Err Seq) (labels tlds : List Seq)
    (cached : List (Seq × Except String Seq)) : List Input :=
  ofLabels index .primary labels ++ ofCached cached ++
    ofLabels index .tld (tlds.filter (fun t => decide (t ∉ labels)))

/-- The inputs with index `k`. -/
def share (L : List Input) (k : Seq) : List Input := L.filter (fun i => decide (i.idx = k))

def Input.entry (i : Input) : Entry := ⟨i.cp, i.cat, [(i.cp, dash)], some i.idx⟩

/-- The dictionary files exactly `L`. -/
structure Files (d : Indexes) (L : List Input) : Prop where
  nodup : (d.map Prod.fst).Nodup
  get : ∀ k, dget d k = if share L k = [] then none else some ((share L k).map Input.entry)

theorem Files.add {st : St} {L : List Input} (h : Files st.idx L) (cat : Cat) (l k : Seq) :
    Files (st.add cat l k).idx (L ++ [⟨l, cat, k⟩]) := by
  refine ⟨dset_nodup h.nodup _ _, fun k' => ?_⟩
  unfold St.add
  simp only
  rw [dget_dset, h.get, h.get]
  by_cases hk : k = k'
  · subst hk
    rw [if_pos rfl]
    by_cases hs : share L k = []
    · simp only [hs, if_true, Option.getD_none, List.nil_append]
      have : share (L ++ [⟨l, cat, k⟩]) k = [⟨l, cat, k⟩] := by
        unfold share at hs ⊢; rw [List.filter_append, hs]; simp
      rw [this]; simp [Input.entry]
    · have : share (L ++ [⟨l, cat, k⟩]) k = share L k ++ [⟨l, cat, k⟩] := by
        unfold share; rw [List.filter_append]; simp
      rw [this, if_neg hs, if_neg (by simp)]
      simp [Input.entry]
  · rw [if_neg hk]
    have : share (L ++ [⟨l, cat, k⟩]) k' = share L k' := by
      unfold share; rw [List.filter_append]; simp [hk]
    rw [this]

theorem labels_files {index : Seq → Except Err Seq} {isTld : Bool} (ls : List Seq) {st st' : St}
    {L : List Input} (h : Files st.idx L)
    (he : forEach (labelStep index isTld) st ls = (st', .ok ())) :
    Files st'.idx (L ++ ofLabels index (if isTld then .tld else .primary) ls) ∧
    st'.notIn = st.notIn ++ (if isTld then [] else
      ls.filter (fun l => match index l with | .error (.notInLGR _) => true | _ => false)) ∧
    ∀ l ∈ ls, ∀ e, index l = .error e → ∃ s, e = .notInLGR s := by
  induction ls generalizing st L with
  | nil =>
    simp only [forEach, Prod.mk.injEq, and_true] at he
    subst he
    cases isTld <;> simpa [ofLabels] using h
  | cons l ls ih =>
    simp only [forEach] at he
    split at he
    · simp at he
    rename_i st1 h1
    unfold labelStep at h1
    cases hi : index l with
    | error e =>
      rw [hi] at h1
      have hcase : ∃ s, e = .notInLGR s := by
        cases e <;> simp at h1 ⊢
      obtain ⟨s, rfl⟩ := hcase
      cases isTld with
      | true =>
        simp only [if_true, Prod.mk.injEq, and_true] at h1
        subst h1
        obtain ⟨a, b, c⟩ := ih h he
        refine ⟨?_, by simpa using b, ?_⟩
        · simpa [ofLabels, hi] using a
        · intro m hm e h2
          rcases List.mem_cons.1 hm with rfl | hm
          · rw [hi] at h2; cases h2; exact ⟨s, rfl⟩
          · exact c m hm e h2
      | false =>
        simp only [Bool.false_eq_true, if_false, Prod.mk.injEq, and_true] at h1
        subst h1
        obtain ⟨a, b, c⟩ := ih (st := { st with notIn := st.notIn ++ [l] }) h he
        refine ⟨?_, ?_, ?_⟩
        · simpa [ofLabels, hi] using a
        · simp only [Bool.false_eq_true, if_false] at b ⊢
          rw [b, List.filter_cons, hi]; simp
        · intro m hm e h2
          rcases List.mem_cons.1 hm with rfl | hm
          · rw [hi] at h2; cases h2; exact ⟨s, rfl⟩
          · exact c m hm e h2
    | ok k =>
      rw [hi] at h1
      simp only [Prod.mk.injEq, and_true] at h1
      subst h1
      obtain ⟨a, b, c⟩ := ih (h.add _ l k) he
      refine ⟨?_, ?_, ?_⟩
      · simpa [ofLabels, hi] using a
      · have : (st.add (if isTld = true then Cat.tld else Cat.primary) l k).notIn = st.notIn := rfl
        rw [b, this, List.filter_cons, hi]; simp
      · intro m hm e h2
        rcases List.mem_cons.1 hm with rfl | hm
        · rw [hi] at h2; cases h2
        · exact c m hm e h2

theorem cached_files (cs : List (Seq × Except String Seq)) {st : St} {L : List Input}
    (h : Files st.idx L) : Files (cs.foldl cachedStep st).idx (L ++ ofCached cs) := by
  induction cs generalizing st L with
  | nil => simpa [ofCached] using h
  | cons c cs ih =>
    rw [List.foldl_cons]
    obtain ⟨l, r⟩ := c
    cases r with
    | error s =>
      have h2 : Files (cachedStep st (l, .error s)).idx L := by
        unfold cachedStep; simp only; split
        · exact h
        · exact h
      simpa [ofCached] using ih h2
    | ok k =>
      have h2 : Files (cachedStep st (l, .ok k)).idx (L ++ [⟨l, .primary, k⟩]) := h.add .primary l k
      simpa [ofCached] using ih h2

theorem collect_files {index : Seq → Except Err Seq} {labels tlds : List Seq}
    {cached : List (Seq × Except String Seq)} {st : St}
    (h : collect index labels cached tlds = (st, .ok ())) :
    Files st.idx (inputs index labels tlds cached) := by
  unfold collect at h
  split at h
  · simp at h
  rename_i st1 h1
  have f1 := (labels_files labels (L := []) ⟨by simp, by simp [share, dget]⟩ h1).1
  have f2 := cached_files cached f1
  have f3 := (labels_files _ f2 h).1
  simpa [inputs] using f3

/-! ### The variants of the groups -/

/-- Category and index never change. -/
def core (e : Entry) : Seq × Cat × Option Seq := (e.cp, e.cat, e.index)

def IsPrim (e : Entry) : Bool := decide (e.cat ≠ .variant)

/-- What is stored when reporting the variant: no log when quiet. -/
def stored (quiet : Bool) (i : Info) : Info := { i with rules := if quiet then "" else i.rules }

/-- The dispositions an entry must show, when `Y q` has been yielded for the primary `q` so far: the
last one yielded for it, or a dash for itself. -/
def shown (quiet : Bool) (Y : Seq → List (Seq × Info)) (e : Entry) (q : Seq) : Option Info :=
  match dget (Y q).reverse e.cp with
  | some i => some (stored quiet i)
  | none => if e.cat ≠ .variant ∧ q = e.cp then some dash else none

/-- Invariant of the processing of a group with primaries `ps`. -/
structure Grp (quiet : Bool) (ps : List Entry) (Y : Seq → List (Seq × Info)) (es : List Entry) :
    Prop where
  prims : (es.filter IsPrim).map core = ps.map core
  nodup : (es.map Entry.cp).Nodup
  info : ∀ e ∈ es, ∀ q, dget e.info q = shown quiet Y e q
  all : ∀ q v, v ∈ Y q → v.1 ∈ es.map Entry.cp
  vars : ∀ e ∈ es, e.cat = .variant → e.index = none ∧ e.cp ∉ ps.map Entry.cp ∧ ∃ q i, (e.cp, i) ∈ Y q

def push (Y : Seq → List (Seq × Info)) (p : Seq) (vs : List (Seq × Info)) :
    Seq → List (Seq × Info) := fun q => if q = p then Y q ++ vs else Y q

theorem push_nil (Y : Seq → List (Seq × Info)) (p : Seq) : push Y p [] = Y := by
  funext q; unfold push; split <;> simp

theorem push_push (Y : Seq → List (Seq × Info)) (p : Seq) (a b : List (Seq × Info)) :
    push (push Y p a) p b = push Y p (a ++ b) := by
  funext q; unfold push; split <;> simp

theorem push_last (Y : Seq → List (Seq × Info)) (p q : Seq) (v : Seq × Info) (x : Seq) :
    dget (push Y p [v] q).reverse x =
      if q = p ∧ v.1 = x then some v.2 else dget (Y q).reverse x := by
  unfold push
  by_cases hq : q = p
  · rw [if_pos hq, List.reverse_append]
    obtain ⟨a, i⟩ := v
    simp only [List.reverse_cons, List.reverse_nil, List.nil_append, List.cons_append, dget, hq,
      true_and]
  · rw [if_neg hq]; simp [hq]

theorem cp_mem_of_core {es ps : List Entry} (h : (es.filter IsPrim).map core = ps.map core)
    {x : Seq} (hx : x ∈ ps.map Entry.cp) : x ∈ es.map Entry.cp := by
  obtain ⟨p, hp, rfl⟩ := List.mem_map.1 hx
  have : core p ∈ (es.filter IsPrim).map core := by rw [h]; exact List.mem_map.2 ⟨p, hp, rfl⟩
  obtain ⟨e, he, hc⟩ := List.mem_map.1 this
  exact List.mem_map.2 ⟨e, (List.mem_filter.1 he).1, congrArg Prod.fst hc⟩

theorem variantStep_grp {quiet : Bool} {k p : Seq} {d : Indexes} {v : Seq × Info} {ps es : List Entry}
    {Y : Seq → List (Seq × Info)} (hd : dget d k = some es) (hg : Grp quiet ps Y es) :
    ∃ es', variantStep quiet k p d v = (dset d k es', .ok ()) ∧ Grp quiet ps (push Y p [v]) es' := by
  unfold variantStep
  simp only [hd, Option.getD_some]
  have hstored : (⟨v.2.disp, if quiet = true then "" else v.2.rules, v.2.action⟩ : Info) =
      stored quiet v.2 := rfl
  rw [hstored]
  by_cases hv : v.1 ∈ es.map Entry.cp
  · -- known: updated
    obtain ⟨e0, he0, hcp0⟩ := List.mem_map.1 hv
    have hone : es.filter (fun e => decide (e.cp = v.1)) = [e0] := by
      have hnd : (es.filter (fun e => decide (e.cp = v.1))).Nodup :=
        (List.Nodup.of_map _ hg.nodup).filter _
      have hmem : ∀ e, e ∈ es.filter (fun e => decide (e.cp = v.1)) ↔ e ∈ [e0] := by
        intro e
        simp only [List.mem_filter, decide_eq_true_eq, List.mem_singleton]
        constructor
        · rintro ⟨h1, h2⟩
          exact List.inj_on_of_nodup_map hg.nodup h1 he0 (h2.trans hcp0.symm)
        · rintro rfl; exact ⟨he0, hcp0⟩
      exact List.perm_singleton.1 ((List.perm_ext_iff_of_nodup hnd (by simp)).2 hmem)
    rw [hone]
    refine ⟨_, rfl, ?_⟩
    set upd : Entry → Entry := fun e =>
      if e.cp = v.1 then { e with info := dset e.info p (stored quiet v.2) } else e with hupd
    have hcore : ∀ e, core (upd e) = core e := by
      intro e; simp only [hupd]; split <;> rfl
    have hcp : ∀ e, (upd e).cp = e.cp := fun e => congrArg Prod.fst (hcore e)
    have hcat : ∀ e, (upd e).cat = e.cat := fun e => congrArg (fun c => c.2.1) (hcore e)
    have hidx : ∀ e, (upd e).index = e.index := fun e => congrArg (fun c => c.2.2) (hcore e)
    have hmap : (es.map upd).map Entry.cp = es.map Entry.cp := by
      rw [List.map_map]; exact List.map_congr_left (fun e _ => hcp e)
    refine ⟨?_, by rw [hmap]; exact hg.nodup, ?_, ?_, ?_⟩
    · rw [← hg.prims, List.filter_map, List.map_map]
      have : (IsPrim ∘ upd) = IsPrim := by funext e; simp [IsPrim, hcat]
      rw [this]
      exact List.map_congr_left (fun e _ => hcore e)
    · intro e he q
      obtain ⟨e1, h1, rfl⟩ := List.mem_map.1 he
      unfold shown
      rw [push_last, hcp, hcat]
      by_cases hx : e1.cp = v.1
      · have : (upd e1).info = dset e1.info p (stored quiet v.2) := by simp [hupd, hx]
        rw [this, dget_dset]
        by_cases hq : q = p
        · simp [hq, hx]
        · have h3 : ¬ (p = q) := fun h => hq h.symm
          rw [if_neg h3, if_neg (by simp [hq])]
          have := hg.info e1 h1 q
          unfold shown at this
          exact this
      · have : (upd e1).info = e1.info := by simp [hupd, hx]
        rw [this, if_neg (by rintro ⟨-, h3⟩; exact hx h3.symm)]
        have := hg.info e1 h1 q
        unfold shown at this
        exact this
    · intro q w hw
      rw [hmap]
      unfold push at hw
      split at hw
      · rcases List.mem_append.1 hw with h3 | h3
        · exact hg.all q w h3
        · rw [List.mem_singleton.1 h3]; exact hv
      · exact hg.all q w hw
    · intro e he hvar
      obtain ⟨e1, h1, rfl⟩ := List.mem_map.1 he
      rw [hcat] at hvar
      obtain ⟨h2, h3, q, i, h4⟩ := hg.vars e1 h1 hvar
      rw [hcp, hidx]
      refine ⟨h2, h3, q, i, ?_⟩
      unfold push; split
      · exact List.mem_append_left _ h4
      · exact h4
  · -- new: added
    have hnone : es.filter (fun e => decide (e.cp = v.1)) = [] := by
      rw [List.filter_eq_nil_iff]
      intro e he
      simp only [decide_eq_true_eq]
      rintro h; exact hv (List.mem_map.2 ⟨e, he, h⟩)
    rw [hnone]
    refine ⟨_, rfl, ?_, ?_, ?_, ?_, ?_⟩
    · rw [List.filter_append, List.map_append, hg.prims]; simp [IsPrim]
    · rw [List.map_append, List.nodup_append]
      refine ⟨hg.nodup, by simp, ?_⟩
      intro a ha b hb
      simp at hb; subst hb; rintro rfl; exact hv ha
    · intro e he q
      rcases List.mem_append.1 he with h1 | h1
      · have hx : ¬ (q = p ∧ v.1 = e.cp) := by
          rintro ⟨-, h3⟩; exact hv (h3 ▸ List.mem_map.2 ⟨e, h1, rfl⟩)
        have := hg.info e h1 q
        unfold shown at this ⊢
        rw [push_last, if_neg hx]; exact this
      · rw [List.mem_singleton.1 h1]
        unfold shown
        rw [push_last]
        simp only [dget]
        by_cases hq : q = p
        · simp [hq]
        · have hq' : ¬ p = q := fun h => hq h.symm
          have hnoY : dget (Y q).reverse v.1 = none := by
            rw [dget_eq_none]
            intro hm
            obtain ⟨w, hw, hwv⟩ := List.mem_map.1 hm
            exact hv (hwv ▸ hg.all q w (List.mem_reverse.1 hw))
          simp [hq, hq', hnoY]
    · intro q w hw
      rw [List.map_append]
      unfold push at hw
      split at hw
      · rcases List.mem_append.1 hw with h3 | h3
        · exact List.mem_append_left _ (hg.all q w h3)
        · rw [List.mem_singleton.1 h3]; simp
      · exact List.mem_append_left _ (hg.all q w hw)
    · intro e he hvar
      rcases List.mem_append.1 he with h1 | h1
      · obtain ⟨h2, h3, q, i, h4⟩ := hg.vars e h1 hvar
        refine ⟨h2, h3, q, i, ?_⟩
        unfold push; split
        · exact List.mem_append_left _ h4
        · exact h4
      · rw [List.mem_singleton.1 h1]
        refine ⟨rfl, fun h => hv (cp_mem_of_core hg.prims h), p, v.2, ?_⟩
        unfold push; simp

theorem variants_grp {quiet : Bool} {k p : Seq} (vs : List (Seq × Info)) {d : Indexes}
    {ps es : List Entry} {Y : Seq → List (Seq × Info)} (hn : (d.map Prod.fst).Nodup)
    (hd : dget d k = some es) (hg : Grp quiet ps Y es) :
    ∃ d' es', forEach (variantStep quiet k p) d vs = (d', .ok ()) ∧ dget d' k = some es' ∧
      (d'.map Prod.fst).Nodup ∧ (∀ k', k' ≠ k → dget d' k' = dget d k') ∧
      Grp quiet ps (push Y p vs) es' := by
  induction vs generalizing d es Y with
  | nil => exact ⟨d, es, rfl, hd, hn, fun _ _ => rfl, by rw [push_nil]; exact hg⟩
  | cons v vs ih =>
    obtain ⟨es1, h1, g1⟩ := variantStep_grp (p := p) (v := v) hd hg
    obtain ⟨d2, es2, h2, h3, h4, h5, h6⟩ := ih (dset_nodup hn k es1)
      (by rw [dget_dset]; simp) g1
    refine ⟨d2, es2, by simp only [forEach, h1]; exact h2, h3, h4, fun k' hk' => ?_, ?_⟩
    · rw [h5 k' hk', dget_dset, if_neg (Ne.symm hk')]
    · rw [push_push] at h6; exact h6

/-- The yields of the primaries. -/
def yields (dispo : Dispo) (quiet : Bool) (w : Option (List Seq)) (ps : List Entry) (q : Seq) :
    List (Seq × Info) :=
  if q ∈ ps.map Entry.cp then (dispo (!quiet) q w).1 else []

theorem primaries_grp {dispo : Dispo} {quiet keep : Bool} {k : Seq} {cps : List Seq}
    (todo : List Entry) {d d' : Indexes} {ps es : List Entry} (done : List Entry)
    (hnd : ((done ++ todo).map Entry.cp).Nodup) (hn : (d.map Prod.fst).Nodup)
    (hd : dget d k = some es)
    (hg : Grp quiet ps (yields dispo quiet (if keep then none else some cps) done) es)
    (h : forEach (primaryStep dispo quiet keep k cps) d todo = (d', .ok ())) :
    ∃ es', dget d' k = some es' ∧ (d'.map Prod.fst).Nodup ∧ (∀ k', k' ≠ k → dget d' k' = dget d k') ∧
      Grp quiet ps (yields dispo quiet (if keep then none else some cps) (done ++ todo)) es' := by
  induction todo generalizing d es done with
  | nil =>
    simp only [forEach, Prod.mk.injEq, and_true] at h
    subst h
    exact ⟨es, hd, hn, fun _ _ => rfl, by simpa using hg⟩
  | cons p todo ih =>
    simp only [forEach] at h
    split at h
    · simp at h
    rename_i d1 h1
    obtain ⟨d2, es2, e1, e2, e3, e4, e5⟩ := variants_grp (p := p.cp)
      (dispo (!quiet) p.cp (if keep then none else some cps)).1 hn hd hg
    unfold primaryStep at h1
    simp only [e1, Prod.mk.injEq] at h1
    obtain ⟨rfl, -⟩ := h1
    have hY : push (yields dispo quiet (if keep then none else some cps) done) p.cp
        (dispo (!quiet) p.cp (if keep then none else some cps)).1 =
        yields dispo quiet (if keep then none else some cps) (done ++ [p]) := by
      funext q
      unfold push yields
      have hp : p.cp ∉ done.map Entry.cp := by
        rw [List.map_append, List.nodup_append] at hnd
        intro hm
        exact hnd.2.2 _ hm p.cp (by simp) rfl
      by_cases hq : q = p.cp
      · subst hq; rw [if_pos rfl, if_neg hp]; simp
      · rw [if_neg hq]
        by_cases hm : q ∈ done.map Entry.cp
        · have hm' : q ∈ (done ++ [p]).map Entry.cp := by
            rw [List.map_append]; exact List.mem_append_left _ hm
          rw [if_pos hm, if_pos hm']
        · have hm' : q ∉ (done ++ [p]).map Entry.cp := by
            rw [List.map_append, List.mem_append]
            rintro (h | h)
            · exact hm h
            · simp at h; exact hq h
          rw [if_neg hm, if_neg hm']
    rw [hY] at e5
    obtain ⟨es3, f1, f2, f3, f4⟩ := ih (done ++ [p]) (by simpa using hnd) e3 e2 e5 h
    refine ⟨es3, f1, f2, fun k' hk' => by rw [f3 k' hk', e4 k' hk'], by simpa using f4⟩

theorem primaries_ok {dispo : Dispo} {quiet keep : Bool} {k : Seq} {cps : List Seq}
    (hok : ∀ b l w, (dispo b l w).2 = .ok ()) (todo : List Entry) {d : Indexes} {ps es : List Entry}
    {Y : Seq → List (Seq × Info)} (hn : (d.map Prod.fst).Nodup)
    (hd : dget d k = some es) (hg : Grp quiet ps Y es) :
    ∃ d', forEach (primaryStep dispo quiet keep k cps) d todo = (d', .ok ()) := by
  induction todo generalizing d es Y with
  | nil => exact ⟨d, rfl⟩
  | cons p todo ih =>
    obtain ⟨d2, es2, e1, e2, e3, e4, e5⟩ := variants_grp (p := p.cp)
      (dispo (!quiet) p.cp (if keep then none else some cps)).1 hn hd hg
    have h1 : primaryStep dispo quiet keep k cps d p = (d2, .ok ()) := by
      unfold primaryStep; simp only [e1, hok]
    simp only [forEach, h1]
    exact ih e3 e2 e5

/-- What becomes of a group. -/
def Outcome (dispo : Dispo) (quiet keep : Bool) (ps : List Entry) (r : Option (List Entry)) : Prop :=
  if ps.length < 2 ∧ keep = false then r = none
  else if keep = false ∧ quiet = true then r = some ps
  else ∃ es, r = some es ∧
    Grp quiet ps (yields dispo quiet (if keep then none else some (ps.map Entry.cp)) ps) es

theorem grp_start {quiet : Bool} {L : List Input} (hnd : (L.map Input.cp).Nodup)
    (hcat : ∀ i ∈ L, i.cat ≠ .variant) {Y : Seq → List (Seq × Info)} (hY : ∀ q, Y q = []) :
    Grp quiet (L.map Input.entry) Y (L.map Input.entry) := by
  have hfil : (L.map Input.entry).filter IsPrim = L.map Input.entry := by
    rw [List.filter_eq_self]
    intro e he
    obtain ⟨i, hi, rfl⟩ := List.mem_map.1 he
    simp [IsPrim, Input.entry, hcat i hi]
  refine ⟨by rw [hfil], ?_, ?_, ?_, ?_⟩
  · rw [List.map_map]; exact hnd
  · intro e he q
    obtain ⟨i, hi, rfl⟩ := List.mem_map.1 he
    unfold shown
    simp only [hY, List.reverse_nil, dget, Input.entry]
    by_cases hq : q = i.cp
    · simp [hq, hcat i hi]
    · have : ¬ i.cp = q := fun h => hq h.symm
      simp [hq, this]
  · intro q v hv; rw [hY] at hv; simp at hv
  · intro e he hvar
    obtain ⟨i, hi, rfl⟩ := List.mem_map.1 he
    exact absurd hvar (hcat i hi)

theorem groupStep_spec {dispo : Dispo} {quiet keep : Bool} {d d' : Indexes} {k : Seq} {L : List Input}
    (hnd : (keep = false ∧ quiet = true) ∨ (L.map Input.cp).Nodup) (hcat : ∀ i ∈ L, i.cat ≠ .variant)
    (hn : (d.map Prod.fst).Nodup) (hd : dget d k = some (L.map Input.entry))
    (h : groupStep dispo quiet keep d (k, L.map Input.entry) = (d', .ok ())) :
    (d'.map Prod.fst).Nodup ∧ (∀ k', k' ≠ k → dget d' k' = dget d k') ∧
      Outcome dispo quiet keep (L.map Input.entry) (dget d' k) := by
  unfold groupStep at h
  unfold Outcome
  by_cases h1 : (L.map Input.entry).length < 2 ∧ keep = false
  · rw [if_pos (by simpa using h1)] at h
    simp only [Prod.mk.injEq, and_true] at h
    subst h
    rw [if_pos h1]
    refine ⟨ddel_nodup hn k, fun k' hk' => ?_, ?_⟩
    · rw [dget_ddel hn, if_neg (Ne.symm hk')]
    · rw [dget_ddel hn, if_pos rfl]
  · rw [if_neg (by simpa using h1)] at h
    rw [if_neg h1]
    by_cases h2 : keep = false ∧ quiet = true
    · rw [if_pos (by simpa using h2)] at h
      simp only [Prod.mk.injEq, and_true] at h
      subst h
      rw [if_pos h2]
      exact ⟨hn, fun _ _ => rfl, hd⟩
    · rw [if_neg (by simpa using h2)] at h
      rw [if_neg h2]
      have hnd' := hnd.resolve_left h2
      obtain ⟨es, e1, e2, e3, e4⟩ := primaries_grp (L.map Input.entry) (ps := L.map Input.entry) []
        (by rw [List.nil_append, List.map_map]; exact hnd') hn hd
        (grp_start hnd' hcat (fun q => by simp [yields])) h
      exact ⟨e2, e3, es, e1, by simpa using e4⟩

theorem groupStep_ok {dispo : Dispo} (hok : ∀ b l w, (dispo b l w).2 = .ok ()) {quiet keep : Bool}
    {d : Indexes} {k : Seq} {L : List Input}
    (hnd : (keep = false ∧ quiet = true) ∨ (L.map Input.cp).Nodup) (hcat : ∀ i ∈ L, i.cat ≠ .variant)
    (hn : (d.map Prod.fst).Nodup) (hd : dget d k = some (L.map Input.entry)) :
    ∃ d', groupStep dispo quiet keep d (k, L.map Input.entry) = (d', .ok ()) := by
  unfold groupStep
  by_cases h1 : (L.map Input.entry).length < 2 ∧ keep = false
  · rw [if_pos (by simpa using h1)]; exact ⟨_, rfl⟩
  · rw [if_neg (by simpa using h1)]
    by_cases h2 : keep = false ∧ quiet = true
    · rw [if_pos (by simpa using h2)]; exact ⟨_, rfl⟩
    · rw [if_neg (by simpa using h2)]
      exact primaries_ok hok _ hn hd (grp_start (Y := fun _ => []) (hnd.resolve_left h2) hcat (by simp))

theorem inputs_cat {index : Seq → Except Err Seq} {labels tlds : List Seq}
    {cached : List (Seq × Except String Seq)} {i : Input} (h : i ∈ inputs index labels tlds cached) :
    i.cat ≠ .variant := by
  unfold inputs ofLabels ofCached at h
  simp only [List.mem_append, List.mem_filterMap] at h
  rcases h with (⟨l, -, h⟩ | ⟨l, -, h⟩) | ⟨l, -, h⟩
  · split at h <;> simp at h
    rw [← h]; simp
  · split at h <;> simp at h
    rw [← h]; simp
  · split at h <;> simp at h
    rw [← h]; simp

theorem share_sub (L : List Input) (k : Seq) : (share L k).Sublist L := List.filter_sublist

theorem groups_spec {dispo : Dispo} {quiet keep : Bool} {L : List Input}
    (hnd : (keep = false ∧ quiet = true) ∨ (L.map Input.cp).Nodup) (hcat : ∀ i ∈ L, i.cat ≠ .variant)
    (todo : Indexes) (htodo : (todo.map Prod.fst).Nodup)
    (hval : ∀ g ∈ todo, g.2 = (share L g.1).map Input.entry) {d : Indexes}
    (hn : (d.map Prod.fst).Nodup) (hd : ∀ g ∈ todo, dget d g.1 = some g.2) :
    (∀ d', forEach (groupStep dispo quiet keep) d todo = (d', .ok ()) →
      (d'.map Prod.fst).Nodup ∧ (∀ k, k ∉ todo.map Prod.fst → dget d' k = dget d k) ∧
      ∀ g ∈ todo, Outcome dispo quiet keep g.2 (dget d' g.1)) ∧
    ((∀ b l w, (dispo b l w).2 = .ok ()) →
      ∃ d', forEach (groupStep dispo quiet keep) d todo = (d', .ok ())) := by
  induction todo generalizing d with
  | nil =>
    constructor
    · intro d' h
      simp only [forEach, Prod.mk.injEq, and_true] at h
      subst h
      exact ⟨hn, by simp, by simp⟩
    · exact fun _ => ⟨d, rfl⟩
  | cons g todo ih =>
    obtain ⟨k, ps⟩ := g
    have hps : ps = (share L k).map Input.entry := hval (k, ps) (by simp)
    have hnd' : (keep = false ∧ quiet = true) ∨ ((share L k).map Input.cp).Nodup :=
      hnd.imp_right (fun h => h.sublist ((share_sub L k).map _))
    have hcat' : ∀ i ∈ share L k, i.cat ≠ .variant := fun i hi => hcat i ((share_sub L k).subset hi)
    have hdk : dget d k = some ((share L k).map Input.entry) := by rw [← hps]; exact hd (k, ps) (by simp)
    simp only [List.map_cons, List.nodup_cons] at htodo
    have next : ∀ d1, groupStep dispo quiet keep d (k, ps) = (d1, .ok ()) →
        (d1.map Prod.fst).Nodup ∧ (∀ k', k' ≠ k → dget d1 k' = dget d k') ∧
        Outcome dispo quiet keep ps (dget d1 k) := by
      intro d1 h1
      rw [hps] at h1 ⊢
      exact groupStep_spec hnd' hcat' hn hdk h1
    have rest : ∀ d1, groupStep dispo quiet keep d (k, ps) = (d1, .ok ()) → _ := fun d1 h1 =>
      ih htodo.2 (fun g hg => hval g (by simp [hg])) (next d1 h1).1 (fun g hg => by
        rw [(next d1 h1).2.1 g.1 (by
          rintro rfl; exact htodo.1 (List.mem_map.2 ⟨g, hg, rfl⟩))]
        exact hd g (by simp [hg]))
    constructor
    · intro d' h
      simp only [forEach] at h
      split at h
      · simp at h
      rename_i d1 h1
      obtain ⟨n1, o1, out1⟩ := next d1 h1
      obtain ⟨r1, r2, r3⟩ := (rest d1 h1).1 d' h
      refine ⟨r1, fun k' hk' => ?_, fun g hg => ?_⟩
      · simp only [List.map_cons, List.mem_cons, not_or] at hk'
        rw [r2 k' hk'.2, o1 k' hk'.1]
      · rcases List.mem_cons.1 hg with rfl | hg
        · rw [r2 k htodo.1]; exact out1
        · exact r3 g hg
    · intro hok
      obtain ⟨d1, h1⟩ := groupStep_ok hok hnd' hcat' hn hdk
      rw [← hps] at h1
      obtain ⟨d2, h2⟩ := (rest d1 h1).2 hok
      exact ⟨d2, by simp only [forEach, h1]; exact h2⟩

/-- The groups of `_generate_indexes`: no label filed twice (or neither variants nor single labels
wanted). -/
theorem generate_spec {index : Seq → Except Err Seq} {dispo : Dispo} {labels tlds : List Seq}
    {keep quiet : Bool} {cached : List (Seq × Except String Seq)} {d : Indexes} {notIn : List Seq}
    (hnd : (keep = false ∧ quiet = true) ∨ ((inputs index labels tlds cached).map Input.cp).Nodup)
    (h : generateIndexes index dispo labels tlds keep quiet cached = .ok (d, notIn)) :
    (d.map Prod.fst).Nodup ∧ ∀ k,
      (share (inputs index labels tlds cached) k = [] → dget d k = none) ∧
      (share (inputs index labels tlds cached) k ≠ [] → Outcome dispo quiet keep
        ((share (inputs index labels tlds cached) k).map Input.entry) (dget d k)) := by
  unfold generateIndexes at h
  split at h
  · simp at h
  rename_i st hst
  have hf := collect_files hst
  generalize hL : inputs index labels tlds cached = L at *
  have hval : ∀ g ∈ st.idx, g.2 = (share L g.1).map Input.entry := by
    rintro ⟨k, es⟩ hg
    have h1 := dget_of_mem hf.nodup hg
    rw [hf.get] at h1
    split at h1
    · simp at h1
    · simp only [Option.some.injEq] at h1; exact h1.symm
  have hcat : ∀ i ∈ L, i.cat ≠ .variant := by rw [← hL]; exact fun i hi => inputs_cat hi
  obtain ⟨hsp, -⟩ := groups_spec (dispo := dispo) hnd hcat st.idx hf.nodup hval hf.nodup
    (fun g hg => dget_of_mem hf.nodup hg)
  split at h
  · simp at h
  rename_i d1 hd1
  simp only [Except.ok.injEq, Prod.mk.injEq] at h
  obtain ⟨rfl, -⟩ := h
  obtain ⟨h1, h2, h3⟩ := hsp d1 hd1
  refine ⟨h1, fun k => ⟨fun hk => ?_, fun hk => ?_⟩⟩
  · have : dget st.idx k = none := by rw [hf.get, if_pos hk]
    rw [h2 k (dget_eq_none.1 this), this]
  · have : dget st.idx k = some ((share L k).map Input.entry) := by rw [hf.get, if_neg hk]
    exact h3 _ (mem_of_dget this)

/-! ### Collision groups -/

theorem mem_ofLabels {index : Seq → Except Err Seq} {cat : Cat} {ls : List Seq} {i : Input} :
    i ∈ ofLabels index cat ls ↔ i.cp ∈ ls ∧ i.cat = cat ∧ index i.cp = .ok i.idx := by
  unfold ofLabels
  rw [List.mem_filterMap]
  constructor
  · rintro ⟨l, hl, h⟩
    split at h
    · rename_i k hk
      simp only [Option.some.injEq] at h
      subst h
      exact ⟨hl, rfl, hk⟩
    · simp at h
  · rintro ⟨h1, h2, h3⟩
    refine ⟨i.cp, h1, ?_⟩
    rw [h3]
    simp only [Option.some.injEq]
    rw [← h2]

theorem ofLabels_sub (index : Seq → Except Err Seq) (cat : Cat) (ls : List Seq) :
    ((ofLabels index cat ls).map Input.cp).Sublist ls := by
  induction ls with
  | nil => simp [ofLabels]
  | cons l ls ih =>
    unfold ofLabels at ih ⊢
    rw [List.filterMap_cons]
    cases index l with
    | error e => exact ih.cons l
    | ok k => exact ih.cons_cons l

/-- The labels (and TLDs) of a group. -/
def Listed (d : Indexes) (k l : Seq) : Prop :=
  ∃ es e, dget d k = some es ∧ e ∈ es ∧ e.cp = l ∧ e.cat ≠ .variant

theorem outcome_listed {dispo : Dispo} {quiet keep : Bool} {L : List Input}
    (hcat : ∀ i ∈ L, i.cat ≠ .variant) {r : Option (List Entry)}
    (h : Outcome dispo quiet keep (L.map Input.entry) r) (es : List Entry) (hr : r = some es) :
    (es.filter IsPrim).map core = L.map (fun i => (i.cp, i.cat, some i.idx)) := by
  unfold Outcome at h
  split at h
  · rw [h] at hr; cases hr
  split at h
  · rw [h] at hr
    simp only [Option.some.injEq] at hr
    rw [← hr]
    have : (L.map Input.entry).filter IsPrim = L.map Input.entry := by
      rw [List.filter_eq_self]
      intro e he
      obtain ⟨i, hi, rfl⟩ := List.mem_map.1 he
      simp [IsPrim, Input.entry, hcat i hi]
    rw [this, List.map_map]; rfl
  · obtain ⟨es', h1, h2⟩ := h
    rw [h1] at hr
    simp only [Option.some.injEq] at hr
    rw [← hr, h2.prims, List.map_map]; rfl

theorem outcome_isSome {dispo : Dispo} {quiet keep : Bool} {ps : List Entry}
    {r : Option (List Entry)} (hps : ps ≠ []) (h : Outcome dispo quiet keep ps r) :
    r.isSome = true ↔ (if keep then 1 else 2) ≤ ps.length := by
  have : 0 < ps.length := List.length_pos_of_ne_nil hps
  unfold Outcome at h
  split at h
  · rename_i h1
    rw [h]; simp [h1.2]; exact h1.1
  · rename_i h1
    have hs : r.isSome = true := by
      split at h
      · rw [h]; rfl
      · obtain ⟨es, h2, -⟩ := h; rw [h2]; rfl
    rw [hs]
    simp only [true_iff]
    cases keep with
    | true => simp only [if_true]; omega
    | false => simp at h1 ⊢; exact h1

/-- **C32** The groups of `_generate_indexes`, for any labels, cached indexes, TLDs and options such
that no label is filed twice: the group of index `k` is there iff at least two labels (one, when all
are wanted) have that index; and then its entries other than variants are exactly those labels, in
their order. -/
theorem generate_indexes_exact (index : Seq → Except Err Seq) (dispo : Dispo)
    (labels tlds : List Seq) (keep quiet : Bool) (cached : List (Seq × Except String Seq))
    (d : Indexes) (notIn : List Seq)
    (hnd : (keep = false ∧ quiet = true) ∨ ((inputs index labels tlds cached).map Input.cp).Nodup)
    (h : generateIndexes index dispo labels tlds keep quiet cached = .ok (d, notIn)) (k : Seq) :
    ((∃ es, dget d k = some es) ↔
      (if keep then 1 else 2) ≤ (share (inputs index labels tlds cached) k).length) ∧
    ∀ es, dget d k = some es → (es.filter (fun e => decide (e.cat ≠ .variant))).map
      (fun e => (e.cp, e.cat, e.index)) =
      (share (inputs index labels tlds cached) k).map (fun i => (i.cp, i.cat, some i.idx)) := by
  obtain ⟨h1, h2, h3⟩ : _ ∧ _ ∧ _ := ⟨(generate_spec hnd h).1, ((generate_spec hnd h).2 k).1,
    ((generate_spec hnd h).2 k).2⟩
  by_cases hk : share (inputs index labels tlds cached) k = []
  · rw [h2 hk, hk]
    constructor
    · cases keep <;> simp
    · simp
  · have ho := h3 hk
    constructor
    · rw [← Option.isSome_iff_exists, outcome_isSome (by simpa using hk) ho, List.length_map]
    · intro es hes
      exact outcome_listed (fun i hi => inputs_cat ((share_sub _ k).subset hi)) ho es hes

/-- **C32** The variants listed in a group (not quiet, or all wanted): each is no label of the group
and was computed for one of them; no entry is listed twice; and the disposition shown for a label of
the group is the one computed last for it, a dash for itself when none was computed. -/
theorem generate_indexes_variants (index : Seq → Except Err Seq) (dispo : Dispo)
    (labels tlds : List Seq) (keep quiet : Bool) (cached : List (Seq × Except String Seq))
    (d : Indexes) (notIn : List Seq) (hmode : ¬ (keep = false ∧ quiet = true))
    (hnd : ((inputs index labels tlds cached).map Input.cp).Nodup)
    (h : generateIndexes index dispo labels tlds keep quiet cached = .ok (d, notIn)) (k : Seq)
    (es : List Entry) (hes : dget d k = some es) :
    let group := (share (inputs index labels tlds cached) k).map Input.cp
    let computed := fun q => (dispo (!quiet) q (if keep then none else some group)).1
    (es.map Entry.cp).Nodup ∧
    (∀ q ∈ group, ∀ v ∈ computed q, v.1 ∈ es.map Entry.cp) ∧
    (∀ e ∈ es, e.cat = .variant → e.cp ∉ group ∧ ∃ q ∈ group, ∃ i, (e.cp, i) ∈ computed q) ∧
    ∀ e ∈ es, ∀ q, dget e.info q =
      match (if q ∈ group then dget (computed q).reverse e.cp else none) with
      | some i => some ⟨i.disp, if quiet then "" else i.rules, i.action⟩
      | none => if e.cat ≠ .variant ∧ q = e.cp then some ⟨"-", "-", none⟩ else none := by
  intro group computed
  obtain ⟨h2, h3⟩ := (generate_spec (.inr hnd) h).2 k
  by_cases hk : share (inputs index labels tlds cached) k = []
  · rw [h2 hk] at hes; cases hes
  · have ho := h3 hk
    unfold Outcome at ho
    split at ho
    · rw [ho] at hes; cases hes
    obtain ⟨es', h4, h5⟩ := ho
    rw [h4] at hes
    simp only [Option.some.injEq] at hes
    subst hes
    have hcps : ((share (inputs index labels tlds cached) k).map Input.entry).map Entry.cp = group := by
      rw [List.map_map]; rfl
    have hY : ∀ q, yields dispo quiet (if keep then none else some
        (((share (inputs index labels tlds cached) k).map Input.entry).map Entry.cp))
        ((share (inputs index labels tlds cached) k).map Input.entry) q =
        if q ∈ group then computed q else [] := by
      intro q; unfold yields; rw [hcps]
    refine ⟨h5.nodup, ?_, ?_, ?_⟩
    · intro q hq v hv
      exact h5.all q v (by rw [hY, if_pos hq]; exact hv)
    · intro e he hvar
      obtain ⟨-, h6, q, i, h7⟩ := h5.vars e he hvar
      rw [hcps] at h6
      rw [hY] at h7
      split at h7
      · rename_i hq; exact ⟨h6, q, hq, i, h7⟩
      · simp at h7
    · intro e he q
      rw [h5.info e he q]
      unfold shown
      rw [hY]
      by_cases hq : q ∈ group
      · rw [if_pos hq, if_pos hq]; rfl
      · rw [if_neg hq, if_neg hq]; rfl

theorem inputs_labels (index : Seq → Except Err Seq) (labels : List Seq) :
    inputs index labels [] [] = ofLabels index .primary labels := by
  simp [inputs, ofCached, ofLabels]

theorem share_labels {index : Seq → Except Err Seq} {labels : List Seq} (hnd : labels.Nodup)
    (k : Seq) : 2 ≤ (share (ofLabels index .primary labels) k).length ↔
      ∃ l1 ∈ labels, ∃ l2 ∈ labels, l1 ≠ l2 ∧ index l1 = .ok k ∧ index l2 = .ok k := by
  have hn : ((share (ofLabels index .primary labels) k).map Input.cp).Nodup :=
    (hnd.sublist (ofLabels_sub index .primary labels)).sublist ((share_sub _ k).map _)
  have hm : ∀ i, i ∈ share (ofLabels index .primary labels) k ↔
      i.cp ∈ labels ∧ i.cat = .primary ∧ i.idx = k ∧ index i.cp = .ok k := by
    intro i
    unfold share
    rw [List.mem_filter, mem_ofLabels]
    simp only [decide_eq_true_eq]
    constructor
    · rintro ⟨⟨h1, h2, h3⟩, h4⟩; exact ⟨h1, h2, h4, h4 ▸ h3⟩
    · rintro ⟨h1, h2, h4, h3⟩; exact ⟨⟨h1, h2, h4 ▸ h3⟩, h4⟩
  constructor
  · intro hl
    match hs : share (ofLabels index .primary labels) k, hl with
    | i :: j :: rest, _ =>
      rw [hs] at hn hm
      have hi := (hm i).1 (by simp)
      have hj := (hm j).1 (by simp)
      refine ⟨i.cp, hi.1, j.cp, hj.1, ?_, hi.2.2.2, hj.2.2.2⟩
      simp only [List.map_cons, List.nodup_cons, List.mem_cons, not_or] at hn
      exact hn.1.1
    | [], h => simp at h
    | [i], h => simp at h
  · rintro ⟨l1, h1, l2, h2, hne, h3, h4⟩
    by_contra hlt
    have m1 := (hm ⟨l1, .primary, k⟩).2 ⟨h1, rfl, rfl, h3⟩
    have m2 := (hm ⟨l2, .primary, k⟩).2 ⟨h2, rfl, rfl, h4⟩
    match hs : share (ofLabels index .primary labels) k with
    | [] => rw [hs] at m1; simp at m1
    | [i] =>
      rw [hs] at m1 m2
      simp only [List.mem_singleton] at m1 m2
      rw [← m1] at m2
      simp only [Input.mk.injEq, and_true] at m2
      exact hne m2.symm
    | i :: j :: rest => rw [hs] at hlt; simp at hlt

/-- **C32** `get_collisions` on a set of labels (in any order): a group is reported for an index iff
two different labels have it. -/
theorem group_reported_iff (index : Seq → Except Err Seq) (dispo : Dispo) (labels : List Seq)
    (quiet : Bool) (hnd : labels.Nodup) (d : Indexes)
    (h : getCollisions index dispo labels quiet [] = .ok d) (k : Seq) :
    k ∈ d.map Prod.fst ↔
      ∃ l1 ∈ labels, ∃ l2 ∈ labels, l1 ≠ l2 ∧ index l1 = .ok k ∧ index l2 = .ok k := by
  unfold getCollisions at h
  split at h
  · simp at h
  rename_i d1 n1 h1
  simp only [Except.ok.injEq] at h
  subst h
  have hL := inputs_labels index labels
  have := (generate_indexes_exact index dispo labels [] false quiet [] d1 n1
    (.inr (by rw [hL]; exact hnd.sublist (ofLabels_sub _ _ _))) h1 k).1
  rw [← dget_isSome, Option.isSome_iff_exists, this, hL, ← share_labels hnd k]
  simp

/-- **C32** Two different labels of the set are listed together iff they have the same index. -/
theorem collide_iff (index : Seq → Except Err Seq) (dispo : Dispo) (labels : List Seq)
    (quiet : Bool) (hnd : labels.Nodup) (d : Indexes)
    (h : getCollisions index dispo labels quiet [] = .ok d) (l1 l2 : Seq) (hne : l1 ≠ l2) :
    (∃ k, Listed d k l1 ∧ Listed d k l2) ↔
      l1 ∈ labels ∧ l2 ∈ labels ∧ ∃ k, index l1 = .ok k ∧ index l2 = .ok k := by
  have hrep := group_reported_iff index dispo labels quiet hnd d h
  unfold getCollisions at h
  split at h
  · simp at h
  rename_i d1 n1 h1
  simp only [Except.ok.injEq] at h
  subst h
  have hL := inputs_labels index labels
  have hex := fun k => (generate_indexes_exact index dispo labels [] false quiet [] d1 n1
    (.inr (by rw [hL]; exact hnd.sublist (ofLabels_sub _ _ _))) h1 k).2
  rw [hL] at hex
  have hlist : ∀ k l, Listed d1 k l ↔
      (∃ es, dget d1 k = some es) ∧ l ∈ labels ∧ index l = .ok k := by
    intro k l
    have hmem : ∀ es, dget d1 k = some es → ((∃ e ∈ es, e.cp = l ∧ e.cat ≠ .variant) ↔
        l ∈ labels ∧ index l = .ok k) := by
      intro es hes
      have hm := hex k es hes
      constructor
      · rintro ⟨e, he, rfl, hc⟩
        have : (e.cp, e.cat, e.index) ∈ (es.filter (fun e => decide (e.cat ≠ .variant))).map
            (fun e => (e.cp, e.cat, e.index)) :=
          List.mem_map.2 ⟨e, List.mem_filter.2 ⟨he, by simpa using hc⟩, rfl⟩
        rw [hm] at this
        obtain ⟨i, hi, hie⟩ := List.mem_map.1 this
        simp only [Prod.mk.injEq] at hie
        unfold share at hi
        rw [List.mem_filter, mem_ofLabels] at hi
        rw [← hie.1]
        refine ⟨hi.1.1, ?_⟩
        rw [hi.1.2.2]
        simpa using hi.2
      · rintro ⟨h2, h3⟩
        have : (l, Cat.primary, some k) ∈ (share (ofLabels index .primary labels) k).map
            (fun i => (i.cp, i.cat, some i.idx)) := by
          refine List.mem_map.2 ⟨⟨l, .primary, k⟩, ?_, rfl⟩
          unfold share
          rw [List.mem_filter, mem_ofLabels]
          exact ⟨⟨h2, rfl, h3⟩, by simp⟩
        rw [← hm] at this
        obtain ⟨e, he, hie⟩ := List.mem_map.1 this
        simp only [Prod.mk.injEq] at hie
        exact ⟨e, (List.mem_filter.1 he).1, hie.1, by rw [hie.2.1]; simp⟩
    constructor
    · rintro ⟨es, e, h2, h3⟩
      exact ⟨⟨es, h2⟩, (hmem es h2).1 ⟨e, h3⟩⟩
    · rintro ⟨⟨es, h2⟩, h3⟩
      obtain ⟨e, h4⟩ := (hmem es h2).2 h3
      exact ⟨es, e, h2, h4⟩
  constructor
  · rintro ⟨k, h2, h3⟩
    obtain ⟨-, h4, h5⟩ := (hlist k l1).1 h2
    obtain ⟨-, h6, h7⟩ := (hlist k l2).1 h3
    exact ⟨h4, h6, k, h5, h7⟩
  · rintro ⟨h2, h3, k, h4, h5⟩
    have hk : ∃ es, dget d1 k = some es := by
      rw [← Option.isSome_iff_exists, dget_isSome]
      exact (hrep k).2 ⟨l1, h2, l2, h3, hne, h4, h5⟩
    exact ⟨k, (hlist k l1).2 ⟨hk, h2, h4⟩, (hlist k l2).2 ⟨hk, h3, h5⟩⟩

theorem labels_ok {index : Seq → Except Err Seq} {isTld : Bool} (ls : List Seq) (st : St)
    (hidx : ∀ l ∈ ls, ∀ e, index l = .error e → ∃ s, e = .notInLGR s) :
    ∃ st', forEach (labelStep index isTld) st ls = (st', .ok ()) := by
  induction ls generalizing st with
  | nil => exact ⟨st, rfl⟩
  | cons l ls ih =>
    have h1 : ∃ st1, labelStep index isTld st l = (st1, .ok ()) := by
      unfold labelStep
      cases hi : index l with
      | ok k => exact ⟨_, rfl⟩
      | error e =>
        obtain ⟨s, rfl⟩ := hidx l (by simp) e hi
        cases isTld <;> exact ⟨_, rfl⟩
    obtain ⟨st1, h1⟩ := h1
    simp only [forEach, h1]
    exact ih st1 (fun l hl => hidx l (by simp [hl]))

/-- **C32** `get_collisions` on a set of labels returns when computing indexes raises nothing but
`NotInLGR` and computing dispositions raises nothing: its assertion never fails. -/
theorem get_collisions_returns (index : Seq → Except Err Seq) (dispo : Dispo) (labels : List Seq)
    (quiet : Bool) (hnd : labels.Nodup)
    (hidx : ∀ l e, index l = .error e → ∃ s, e = .notInLGR s)
    (hdispo : ∀ b l w, (dispo b l w).2 = .ok ()) :
    ∃ d, getCollisions index dispo labels quiet [] = .ok d := by
  obtain ⟨st1, h1⟩ := labels_ok (isTld := false) labels {} (fun l _ => hidx l)
  have hcol : collect index labels [] [] = (st1, .ok ()) := by
    unfold collect; rw [h1]; rfl
  have hf := collect_files hcol
  rw [inputs_labels] at hf
  have hval : ∀ g ∈ st1.idx, g.2 = (share (ofLabels index .primary labels) g.1).map Input.entry := by
    rintro ⟨k, es⟩ hg
    have h1 := dget_of_mem hf.nodup hg
    rw [hf.get] at h1
    split at h1
    · simp at h1
    · simp only [Option.some.injEq] at h1; exact h1.symm
  obtain ⟨d, hd⟩ := (groups_spec (quiet := quiet) (keep := false)
    (.inr (hnd.sublist (ofLabels_sub index .primary labels)))
    (fun i hi => by rw [(mem_ofLabels.1 hi).2.1]; simp) st1.idx hf.nodup hval hf.nodup
    (fun g hg => dget_of_mem hf.nodup hg)).2 hdispo
  refine ⟨d, ?_⟩
  unfold getCollisions generateIndexes
  rw [hcol]; simp only [hd]

theorem cached_notIn (cs : List (Seq × Except String Seq)) (st : St) :
    (cs.foldl cachedStep st).notIn = st.notIn ++
      (cs.filter (fun c => match c.2 with | .error s => s == "NotInLGR" | .ok _ => false)).map
        Prod.fst := by
  induction cs generalizing st with
  | nil => simp
  | cons c cs ih =>
    obtain ⟨l, r⟩ := c
    rw [List.foldl_cons, ih]
    cases r with
    | error s =>
      by_cases hs : s = "NotInLGR"
      · simp [cachedStep, hs]
      · simp [cachedStep, hs]
    | ok k => simp [cachedStep, St.add]

/-- **C32** The labels reported as not in the LGR are those for which computing the index says so,
and those cached as such; TLDs are never reported. -/
theorem not_in_lgr_exact (index : Seq → Except Err Seq) (dispo : Dispo) (labels tlds : List Seq)
    (keep quiet : Bool) (cached : List (Seq × Except String Seq)) (d : Indexes) (notIn : List Seq)
    (h : generateIndexes index dispo labels tlds keep quiet cached = .ok (d, notIn)) (l : Seq) :
    l ∈ notIn ↔ (l ∈ labels ∧ ∃ s, index l = .error (.notInLGR s)) ∨
      (l, .error "NotInLGR") ∈ cached := by
  unfold generateIndexes at h
  split at h
  · simp at h
  rename_i st hst
  split at h
  · simp at h
  simp only [Except.ok.injEq, Prod.mk.injEq] at h
  obtain ⟨-, rfl⟩ := h
  unfold collect at hst
  split at hst
  · simp at hst
  rename_i st1 h1
  have f1 := labels_files labels (L := []) ⟨by simp, by simp [share, dget]⟩ h1
  have f3 := (labels_files _ (cached_files cached f1.1) hst).2.1
  rw [f3, cached_notIn, f1.2.1]
  simp only [Bool.false_eq_true, if_false, List.nil_append, if_true, List.append_nil,
    List.mem_append, List.mem_filter, List.mem_map]
  refine or_congr (and_congr Iff.rfl ?_) ?_
  · split
    · rename_i s hs; simp [hs]
    · rename_i hn
      simp only [Bool.false_eq_true, false_iff, not_exists]
      exact hn
  · constructor
    · rintro ⟨⟨a, r⟩, ⟨h2, h3⟩, rfl⟩
      cases r with
      | error s => simp at h3; subst h3; exact h2
      | ok k => simp at h3
    · intro h2; exact ⟨_, ⟨h2, by simp⟩, rfl⟩

/-- **C32** does not hold with cached indexes: a label that is also cached collides with itself... -/
theorem cached_label_collides_with_itself : ∃ (index : Seq → Except Err Seq) (dispo : Dispo)
    (labels : List Seq) (cached : List (Seq × Except String Seq)) (d : Indexes),
    getCollisions index dispo labels true cached = .ok d ∧ labels = [[1]] ∧
    cached = [([1], .ok [1])] ∧ d ≠ [] :=
  ⟨fun l => .ok l, fun _ _ _ => ([], .ok ()), [[1]], [([1], .ok [1])], _, rfl, rfl, rfl, by simp [
    St.add, dset, dget, ddel, cachedStep, labelStep, forEach]⟩

/-- ... and the assertion fails when variants are wanted. -/
theorem cached_label_assertion : ∃ (index : Seq → Except Err Seq) (dispo : Dispo)
    (labels : List Seq) (cached : List (Seq × Except String Seq)),
    (∀ b l w, (dispo b l w).2 = .ok ()) ∧
    getCollisions index dispo labels false cached = .error .assertion :=
  ⟨fun l => .ok l, fun _ l _ => ([(l, ⟨"valid", "", none⟩)], .ok ()), [[1]], [([1], .ok [1])],
    fun _ _ _ => rfl, rfl⟩

/-! Non-vacuity: three labels, two sharing an index. -/
example : getCollisions (fun l => if l = [3] then .ok [9] else .ok [1])
    (fun _ l _ => ([(l, ⟨"valid", "", some 2⟩), ([7], ⟨"blocked", "log", some 1⟩)], .ok ()))
    [[1], [2], [3]] false [] = .ok [([1],
      [⟨[1], .primary, [([1], ⟨"valid", "", some 2⟩)], some [1]⟩,
       ⟨[2], .primary, [([2], ⟨"valid", "", some 2⟩)], some [1]⟩,
       ⟨[7], .variant, [([1], ⟨"blocked", "log", some 1⟩), ([2], ⟨"blocked", "log", some 1⟩)], none⟩])] := by
  decide +kernel

end Lgr.Props.C32

namespace Lgr.Props.C33
open Lgr Collisions

variable {α : Type} [DecidableEq α]

/-- How often the pair is dumped, in either order. -/
def times (x y : α) (l : List (α × α)) : Nat :=
  (l.filter (fun p => decide (p = (x, y) ∨ p = (y, x)))).length

/-- All pairs of different members of two lists. -/
def cross (a b : List α) : List (α × α) :=
  a.flatMap (fun x => (b.filter (fun y => decide (x ≠ y))).map (fun y => (x, y)))

theorem dumpLoop_some (c1 l2 : List α) (idx : Nat) (rest : List α) :
    dumpLoop c1 idx (some l2) rest = cross rest l2 := by
  induction rest generalizing idx with
  | nil => rfl
  | cons a rest ih => simp [dumpLoop, ih, cross]

theorem dump_eq (a : α) (rest : List α) :
    dumpCollisions (a :: rest) none = cross (a :: rest) rest := by
  unfold dumpCollisions
  simp only [dumpLoop, Option.getD_none, dumpLoop_some]
  simp [cross]

theorem mem_cross {a b : List α} {x y : α} : (x, y) ∈ cross a b ↔ x ∈ a ∧ y ∈ b ∧ x ≠ y := by
  unfold cross
  simp only [List.mem_flatMap, List.mem_map, List.mem_filter, decide_eq_true_eq, Prod.mk.injEq]
  constructor
  · rintro ⟨x', h1, y', ⟨h2, h3⟩, rfl, rfl⟩; exact ⟨h1, h2, h3⟩
  · rintro ⟨h1, h2, h3⟩; exact ⟨x, h1, y, ⟨h2, h3⟩, rfl, rfl⟩

theorem cross_nodup {a b : List α} (ha : a.Nodup) (hb : b.Nodup) : (cross a b).Nodup := by
  unfold cross
  rw [List.nodup_flatMap]
  refine ⟨fun x _ => (hb.filter _).map (fun y z h => by simpa using h), ?_⟩
  refine ha.imp ?_
  intro x y hxy
  rw [Function.onFun, List.disjoint_left]
  intro p h1 h2
  obtain ⟨u, -, rfl⟩ := List.mem_map.1 h1
  obtain ⟨v, -, h3⟩ := List.mem_map.1 h2
  simp only [Prod.mk.injEq] at h3
  exact hxy h3.1.symm

theorem times_nodup {l : List (α × α)} (hl : l.Nodup) {x y : α} (hne : x ≠ y) :
    times x y l = (if (x, y) ∈ l then 1 else 0) + (if (y, x) ∈ l then 1 else 0) := by
  have : ∀ p : α × α, (l.filter (fun q => decide (q = p))).length = if p ∈ l then 1 else 0 := by
    intro p
    have h1 : (l.filter (fun q => decide (q = p))).length = l.count p := by
      rw [List.count_eq_length_filter]
      congr 1
      apply List.filter_congr
      intro q _
      rw [Bool.eq_iff_iff]; simp
    rw [h1]
    split
    · exact List.count_eq_one_of_mem hl ‹_›
    · exact List.count_eq_zero_of_not_mem ‹_›
  rw [← this (x, y), ← this (y, x)]
  unfold times
  clear this hl
  induction l with
  | nil => rfl
  | cons p l ih =>
    simp only [List.filter_cons]
    by_cases h1 : p = (x, y)
    · have h2 : p ≠ (y, x) := by rintro rfl; simp at h1; exact hne h1.2
      simp only [h1, h2, true_or, decide_true, if_true, List.length_cons, ih]
      have h3 : ¬ ((x, y) = (y, x)) := by rw [← h1]; exact h2
      simp only [h3, decide_false, Bool.false_eq_true, if_false]
      omega
    · by_cases h2 : p = (y, x)
      · have h3 : ¬ ((y, x) = (x, y)) := by rw [← h2]; exact h1
        simp only [h2, or_true, decide_true, if_true, List.length_cons, ih, h3, decide_false,
          Bool.false_eq_true, if_false]
        omega
      · simp only [h1, h2, or_self, decide_false, Bool.false_eq_true, if_false, ih]

/-- **C33**, partial: the dump of a group lists only pairs of different labels of the group, each
once when it involves the first label and twice otherwise. Missing: exactly once; see
`dump_lists_twice`. -/
theorem dump_collisions_partial (a : α) (rest : List α) (hnd : (a :: rest).Nodup) :
    (∀ p ∈ dumpCollisions (a :: rest) none, p.1 ∈ a :: rest ∧ p.2 ∈ a :: rest ∧ p.1 ≠ p.2) ∧
    ∀ x y, x ∈ a :: rest → y ∈ a :: rest → x ≠ y →
      times x y (dumpCollisions (a :: rest) none) = if x = a ∨ y = a then 1 else 2 := by
  rw [dump_eq]
  constructor
  · rintro ⟨x, y⟩ h
    obtain ⟨h1, h2, h3⟩ := mem_cross.1 h
    exact ⟨h1, List.mem_cons_of_mem _ h2, h3⟩
  · intro x y hx hy hne
    rw [times_nodup (cross_nodup hnd (List.nodup_cons.1 hnd).2) hne]
    have ha := (List.nodup_cons.1 hnd).1
    have hm : ∀ {z}, z ∈ a :: rest → (z ∈ rest ↔ z ≠ a) := by
      intro z hz
      constructor
      · rintro h rfl; exact ha h
      · intro h; exact (List.mem_cons.1 hz).resolve_left h
    have h1 : (x, y) ∈ cross (a :: rest) rest ↔ y ≠ a := by
      rw [mem_cross, hm hy]; exact ⟨fun h => h.2.1, fun h => ⟨hx, h, hne⟩⟩
    have h2 : (y, x) ∈ cross (a :: rest) rest ↔ x ≠ a := by
      rw [mem_cross, hm hx]; exact ⟨fun h => h.2.1, fun h => ⟨hy, h, hne.symm⟩⟩
    simp only [h1, h2]
    by_cases hxa : x = a
    · have : y ≠ a := by rintro rfl; exact hne hxa
      simp [hxa, this]
    · by_cases hya : y = a
      · simp [hxa, hya]
      · simp [hxa, hya]

/-- **C33** is violated: with three colliding labels a pair is listed twice, in both orders. -/
theorem dump_lists_twice : ∃ (l : List Seq), l.Nodup ∧
    ([2], [3]) ∈ dumpCollisions l none ∧ ([3], [2]) ∈ dumpCollisions l none :=
  ⟨[[1], [2], [3]], by decide, by decide, by decide⟩

/-- **C33** Between labels and TLDs, all pairs of different ones are listed, once. -/
theorem dump_tlds (c1 c2 : List α) (h1 : c1.Nodup) (h2 : c2.Nodup) :
    (dumpCollisions c1 (some c2)).Nodup ∧
    ∀ x y, (x, y) ∈ dumpCollisions c1 (some c2) ↔ x ∈ c1 ∧ y ∈ c2 ∧ x ≠ y := by
  have : dumpCollisions c1 (some c2) = cross c1 c2 := by
    unfold dumpCollisions; rw [dumpLoop_some]
  rw [this]
  exact ⟨cross_nodup h1 h2, fun x y => mem_cross⟩

example : dumpCollisions [1, 2, 3] none = [(1, 2), (1, 3), (2, 3), (3, 2)] := by decide
example : dumpCollisions [1, 2] none = [(1, 2)] := by decide

end Lgr.Props.C33

namespace Lgr.Props.C44
open Lgr Collisions Annotate C32

/-- The set of the valid labels and the label, in any order. -/
structure Order (order : List Seq → List Seq) : Prop where
  nodup : ∀ l, (order l).Nodup
  mem : ∀ l x, x ∈ order l ↔ x ∈ l

/-- **C44**, partial. A collision is reported exactly when the label is in the set, or any two
different labels among the set and the label have the same index. Missing: that one of the two is
the label; see `annotate_reports_unrelated`. -/
theorem annotate_reports_partial (index : Seq → Except Err Seq) (dispo : Dispo)
    (order : List Seq → List Seq) (ho : Order order) (filtered : List Seq) (label : Seq) (v : Verdict)
    (h : verdict index dispo order filtered label = .ok v) :
    (v ≠ .none ↔ label ∈ filtered ∨ ∃ l1 ∈ filtered ++ [label], ∃ l2 ∈ filtered ++ [label],
      l1 ≠ l2 ∧ ∃ k, index l1 = .ok k ∧ index l2 = .ok k) ∧
    (v = .collides ↔ ∃ l1 ∈ filtered ++ [label], ∃ l2 ∈ filtered ++ [label],
      l1 ≠ l2 ∧ ∃ k, index l1 = .ok k ∧ index l2 = .ok k) := by
  unfold verdict at h
  split at h
  · simp at h
  rename_i d hd
  have hrep := group_reported_iff index dispo _ false (ho.nodup _) d hd
  have hpos : 0 < d.length ↔ ∃ l1 ∈ filtered ++ [label], ∃ l2 ∈ filtered ++ [label],
      l1 ≠ l2 ∧ ∃ k, index l1 = .ok k ∧ index l2 = .ok k := by
    constructor
    · intro hp
      obtain ⟨p, hp⟩ := List.exists_mem_of_length_pos hp
      obtain ⟨l1, h1, l2, h2, h3, h4, h5⟩ := (hrep p.1).1 (List.mem_map.2 ⟨p, hp, rfl⟩)
      rw [ho.mem] at h1 h2
      exact ⟨l1, h1, l2, h2, h3, p.1, h4, h5⟩
    · rintro ⟨l1, h1, l2, h2, h3, k, h4, h5⟩
      have := (hrep k).2 ⟨l1, (ho.mem _ _).2 h1, l2, (ho.mem _ _).2 h2, h3, h4, h5⟩
      obtain ⟨p, hp, -⟩ := List.mem_map.1 this
      exact List.length_pos_of_mem hp
  simp only [Except.ok.injEq] at h
  subst h
  rw [← hpos]
  by_cases hp : 0 < d.length
  · simp [hp]
  · simp only [hp, if_false]
    by_cases hm : label ∈ filtered
    · simp [hm]
    · simp [hm]

/-- **C44** The report is right when no two labels of the set collide. -/
theorem annotate_exact_of_checked_set (index : Seq → Except Err Seq) (dispo : Dispo)
    (order : List Seq → List Seq) (ho : Order order) (filtered : List Seq) (label : Seq) (v : Verdict)
    (hset : ∀ l1 ∈ filtered, ∀ l2 ∈ filtered, ∀ k, index l1 = .ok k → index l2 = .ok k → l1 = l2)
    (h : verdict index dispo order filtered label = .ok v) :
    v ≠ .none ↔ label ∈ filtered ∨ ∃ l ∈ filtered, ∃ k, index l = .ok k ∧ index label = .ok k := by
  rw [(annotate_reports_partial index dispo order ho filtered label v h).1]
  refine or_congr_right' ?_
  intro hlab
  constructor
  · rintro ⟨l1, h1, l2, h2, hne, k, h3, h4⟩
    rcases List.mem_append.1 h1 with h1 | h1
    · rcases List.mem_append.1 h2 with h2 | h2
      · exact absurd (hset l1 h1 l2 h2 k h3 h4) hne
      · rw [List.mem_singleton.1 h2] at h4; exact ⟨l1, h1, k, h3, h4⟩
    · rw [List.mem_singleton.1 h1] at h3 hne
      rcases List.mem_append.1 h2 with h2 | h2
      · exact ⟨l2, h2, k, h4, h3⟩
      · exact absurd (List.mem_singleton.1 h2).symm hne
  · rintro ⟨l, h1, k, h2, h3⟩
    exact ⟨l, List.mem_append_left _ h1, label, by simp, by rintro rfl; exact hlab h1, k, h2, h3⟩

/-- **C44** is violated: two labels of the set that collide make every label collide. -/
theorem annotate_reports_unrelated : ∃ (index : Seq → Except Err Seq) (dispo : Dispo)
    (filtered : List Seq) (label : Seq),
    verdict index dispo List.dedup filtered label = .ok .collides ∧ label ∉ filtered ∧
    ∀ l ∈ filtered, index l ≠ index label :=
  ⟨fun l => if l = [3] then .ok [3] else .ok [1], fun _ _ _ => ([], .ok ()), [[1], [2]], [3],
    by decide +kernel, by decide, by decide +kernel⟩

example : Order List.dedup := ⟨List.nodup_dedup, fun l x => List.mem_dedup⟩
example : verdict (fun l => if l = [3] then .ok [3] else .ok [1]) (fun _ _ _ => ([], .ok ()))
    List.dedup [[1]] [2] = .ok .collides := by decide +kernel
example : verdict (fun l => if l = [3] then .ok [3] else .ok [1]) (fun _ _ _ => ([], .ok ()))
    List.dedup [[1]] [3] = .ok .none := by decide +kernel

end Lgr.Props.C44
