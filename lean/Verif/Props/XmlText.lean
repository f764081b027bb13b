import Verif.Xml
import Verif.Props.Text
import Verif.Props.LgrTags

/-!
# C34: the attributes of the written elements, and variants added in the order they are listed
-/

namespace Lgr.Props.C34
open Lgr Xml Text Repertoire LGR C50

/-! ## Attributes -/

theorem dget_append {β : Type} (a b : List (String × β)) (k : String) :
    dget (a ++ b) k = (dget a k).or (dget b k) := by
  induction a with
  | nil => simp [dget]
  | cons p a ih =>
    obtain ⟨x, v⟩ := p
    simp only [List.cons_append, dget]
    split
    · simp
    · exact ih

theorem dget_opt (key : String) (o : Option String) (k : String) :
    dget (optAttr key o) k = if key = k then o else none := by
  cases o <;> simp [optAttr, dget]

theorem dget_list (key : String) (l : List String) (k : String) :
    dget (listAttr key l) k = if key = k then (if l = [] then none else some (joinS l)) else none := by
  cases l <;> simp [listAttr, dget]

theorem dget_one (key : String) (v : String) (k : String) :
    dget [(key, v)] k = if key = k then some v else none := by simp [dget]

/-- A list of names that can be written with spaces between. -/
def Words (l : List String) : Prop := (∀ w ∈ l, ' ' ∉ w.toList) ∧ l ≠ [""]

theorem split_join {l : List String} (h : Words l) : splitS (joinS l) = l := by
  unfold splitS joinS
  rw [String.toList_ofList, C35.string_list_round_trip]
  · rw [List.map_map]
    have : String.ofList ∘ String.toList = id := by
      funext s; simp
    rw [this, List.map_id]
  · intro w hw c hc
    obtain ⟨s, hs, rfl⟩ := List.mem_map.1 hw
    rintro rfl
    exact h.1 s hs hc
  · intro he
    apply h.2
    cases l with
    | nil => simp at he
    | cons s l =>
      cases l with
      | nil =>
        simp only [List.map_cons, List.map_nil, List.cons.injEq, and_true] at he
        have : s = "" := by rw [← String.ofList_toList (s := s), he]
        rw [this]
      | cons t l => simp at he

theorem split_empty : splitS "" = [] := by decide

theorem getList_of {a : XAttrs} {k : String} {l : List String} (hw : Words l)
    (h : dget a k = if l = [] then none else some (joinS l)) : getList a k = l := by
  unfold getList
  rw [h]
  by_cases hl : l = []
  · simp [hl, split_empty]
  · simp [hl, split_join hw]

/-- Everything the element of a character says is read back. -/
theorem opts_char (force : Bool) (c : CharObj) (hr : Words c.attrs.refs) (ht : Words c.attrs.tags) :
    optsOf force (charElem c).attrs =
      { comment := c.attrs.comment, ref := c.attrs.refs, tag := c.attrs.tags, whenR := c.attrs.whenR,
        notWhenR := c.attrs.notWhenR, force := force } := by
  have h : ∀ k, dget (charElem c).attrs k =
      (dget (optAttr "comment" c.attrs.comment ++ optAttr "when" c.attrs.whenR ++
    optAttr "not-when" c.attrs.notWhenR ++ listAttr "ref" c.attrs.refs ++ listAttr "tag" c.attrs.tags) k).or
      (match c.range with
        | some (f, l) => dget [("first-cp", String.ofList (cpToStr f)), ("last-cp", String.ofList (cpToStr l))] k
        | none => dget [("cp", String.ofList (cpAttr c.cp))] k) := by
    intro k
    unfold charElem
    cases c.range with
    | none => exact dget_append _ _ _
    | some p => exact dget_append _ _ _
  have h' : ∀ k, k ≠ "first-cp" → k ≠ "last-cp" → k ≠ "cp" → dget (charElem c).attrs k =
      (dget (optAttr "comment" c.attrs.comment ++ optAttr "when" c.attrs.whenR ++
    optAttr "not-when" c.attrs.notWhenR ++ listAttr "ref" c.attrs.refs ++ listAttr "tag" c.attrs.tags) k) := by
    intro k h1 h2 h3
    rw [h k]
    cases c.range with
    | none => simp [dget, h3.symm]
    | some p => simp [dget, h1.symm, h2.symm]
  unfold optsOf
  rw [getList_of hr (by rw [h' _ (by decide) (by decide) (by decide)]; simp [dget_append, dget_opt, dget_list]),
    getList_of ht (by rw [h' _ (by decide) (by decide) (by decide)]; simp [dget_append, dget_opt, dget_list]),
    h' _ (by decide) (by decide) (by decide), h' _ (by decide) (by decide) (by decide),
    h' _ (by decide) (by decide) (by decide)]
  simp [dget_append, dget_opt, dget_list]

theorem getCp_of {a : XAttrs} {s : Seq} (h : dget a "cp" = some (String.ofList (cpAttr s))) :
    getCp a = .ok s := by
  unfold getCp
  rw [h]
  simp only [String.toList_ofList]
  rw [C35.cp_attribute_round_trip]

theorem cp_char {c : CharObj} (hr : c.range = none) : getCp (charElem c).attrs = .ok c.cp := by
  apply getCp_of
  unfold charElem
  rw [hr]
  simp [dget_append, dget_opt, dget_list, dget_one]

theorem getHex_of {a : XAttrs} {k : String} {n : Nat} (h : dget a k = some (String.ofList (cpToStr n))) :
    getHex a k = .ok n := by
  unfold getHex
  rw [h]
  simp only [String.toList_ofList]
  rw [parseHex_cpToStr]

theorem cp_range {c : CharObj} {f l : Nat} (hr : c.range = some (f, l)) :
    getHex (charElem c).attrs "first-cp" = .ok f ∧ getHex (charElem c).attrs "last-cp" = .ok l := by
  constructor <;>
  · apply getHex_of
    unfold charElem
    rw [hr]
    simp [dget_append, dget_opt, dget_list, dget]

theorem opts_var (force : Bool) (v : Variant) (hr : Words v.refs) :
    varOptsOf force (varAttrs v) =
      { comment := v.comment, ref := v.refs, whenR := v.whenR, notWhenR := v.notWhenR, force := force } := by
  unfold varOptsOf
  rw [getList_of hr (by simp [varAttrs, dget_append, dget_opt, dget_list, dget_one])]
  simp [varAttrs, dget_append, dget_opt, dget_list, dget_one]

theorem cp_var (v : Variant) : getCp (varAttrs v) = .ok v.cp :=
  getCp_of (by simp [varAttrs, dget_append, dget_opt, dget_list, dget_one])

theorem type_var (v : Variant) : dget (varAttrs v) "type" = v.type := by
  simp [varAttrs, dget_append, dget_opt, dget_list, dget_one]

/-! ## Accepted text -/

/-- The texts of a variant. -/
def varTexts (v : Variant) : List String :=
  v.type.toList ++ v.whenR.toList ++ v.notWhenR.toList ++ v.comment.toList ++ v.refs

/-- The texts of a character and its variants. -/
def texts (c : CharObj) : List String :=
  c.attrs.comment.toList ++ c.attrs.whenR.toList ++ c.attrs.notWhenR.toList ++ c.attrs.refs ++
    c.attrs.tags ++ c.getVariants.flatMap varTexts

theorem mem_join {sep x : Char} {l : List (List Char)} (h : x ∈ join sep l) :
    x = sep ∨ ∃ w ∈ l, x ∈ w := by
  induction l with
  | nil => simp [join] at h
  | cons a l ih =>
    cases l with
    | nil => exact .inr ⟨a, by simp, h⟩
    | cons b l =>
      simp only [join, List.mem_append, List.mem_cons] at h
      rcases h with h | h | h
      · exact .inr ⟨a, by simp, h⟩
      · exact .inl h
      · rcases ih h with h | ⟨w, hw, hx⟩
        · exact .inl h
        · exact .inr ⟨w, List.mem_cons_of_mem _ hw, hx⟩

theorem xmlOk_join {l : List String} (h : ∀ s ∈ l, xmlOk s = true) : xmlOk (joinS l) = true := by
  unfold xmlOk joinS at *
  rw [String.toList_ofList, List.all_eq_true]
  intro x hx
  rcases mem_join hx with rfl | ⟨w, hw, hx⟩
  · decide
  · obtain ⟨s, hs, rfl⟩ := List.mem_map.1 hw
    exact List.all_eq_true.1 (h s hs) x hx

theorem xmlChar_digit {d : Nat} (h : d < 16) : xmlChar (digitChar d) = true := by
  have : ∀ d : Fin 16, xmlChar (digitChar d) = true := by decide
  exact this ⟨d, h⟩

theorem xmlChar_cp {n : Nat} {x : Char} (hx : x ∈ cpToStr n) : xmlChar x = true := by
  obtain ⟨l, h, h1, -⟩ := cpToStr_digits n
  rw [h] at hx
  obtain ⟨d, hd, rfl⟩ := List.mem_map.1 hx
  exact xmlChar_digit (h1 d hd)

theorem xmlOk_cp (n : Nat) : xmlOk (String.ofList (cpToStr n)) = true := by
  unfold xmlOk
  rw [String.toList_ofList, List.all_eq_true]
  exact fun x hx => xmlChar_cp hx

theorem xmlOk_cps (s : Seq) : xmlOk (String.ofList (cpAttr s)) = true := by
  unfold xmlOk cpAttr
  rw [String.toList_ofList, List.all_eq_true]
  intro x hx
  rcases mem_join hx with rfl | ⟨w, hw, hx⟩
  · decide
  · obtain ⟨n, -, rfl⟩ := List.mem_map.1 hw
    exact xmlChar_cp hx

theorem mem_optAttr {k : String} {o : Option String} {p : String × String} (h : p ∈ optAttr k o) :
    p.2 ∈ o.toList := by
  cases o <;> simp [optAttr] at h
  rw [h]; simp

theorem mem_listAttr {k : String} {l : List String} {p : String × String} (h : p ∈ listAttr k l) :
    p.2 = joinS l := by
  unfold listAttr at h
  split at h
  · simp at h; rw [h]
  · simp at h

theorem var_ok {v : Variant} (h : ∀ s ∈ varTexts v, xmlOk s = true) :
    (varAttrs v).all (fun p => xmlOk p.2) = true := by
  rw [List.all_eq_true]
  intro p hp
  unfold varTexts at h
  simp only [varAttrs, List.mem_append, List.mem_singleton] at hp h
  rcases hp with ((((hp | hp) | hp) | hp) | hp) | rfl
  · have := mem_optAttr hp; exact h _ (by tauto)
  · have := mem_optAttr hp; exact h _ (by tauto)
  · have := mem_optAttr hp; exact h _ (by tauto)
  · have := mem_optAttr hp; exact h _ (by tauto)
  · rw [mem_listAttr hp]; exact xmlOk_join fun s hs => h s (by tauto)
  · exact xmlOk_cps _

theorem elem_ok {c : CharObj} (h : ∀ s ∈ texts c, xmlOk s = true) : (charElem c).ok = true := by
  have hv : (charElem c).vars.all (fun a => a.all (fun p => xmlOk p.2)) = true := by
    have : (charElem c).vars = c.getVariants.map varAttrs := by
      unfold charElem; cases c.range <;> rfl
    rw [this, List.all_eq_true]
    intro a ha
    obtain ⟨v, hv, rfl⟩ := List.mem_map.1 ha
    refine var_ok fun s hs => h s ?_
    unfold texts
    simp only [List.mem_append, List.mem_flatMap]
    exact .inr ⟨v, hv, hs⟩
  have ha : (charElem c).attrs.all (fun p => xmlOk p.2) = true := by
    rw [List.all_eq_true]
    intro p hp
    unfold texts at h
    simp only [List.mem_append] at h
    have base : p ∈ optAttr "comment" c.attrs.comment ++ optAttr "when" c.attrs.whenR ++
        optAttr "not-when" c.attrs.notWhenR ++ listAttr "ref" c.attrs.refs ++ listAttr "tag" c.attrs.tags →
        xmlOk p.2 = true := by
      intro hp
      simp only [List.mem_append] at hp
      rcases hp with (((hp | hp) | hp) | hp) | hp
      · have := mem_optAttr hp; exact h _ (by tauto)
      · have := mem_optAttr hp; exact h _ (by tauto)
      · have := mem_optAttr hp; exact h _ (by tauto)
      · rw [mem_listAttr hp]; exact xmlOk_join fun s hs => h s (by tauto)
      · rw [mem_listAttr hp]; exact xmlOk_join fun s hs => h s (by tauto)
    unfold charElem at hp
    cases hr : c.range with
    | none =>
      rw [hr] at hp
      rcases List.mem_append.1 hp with hp | hp
      · exact base hp
      · simp at hp; rw [hp]; exact xmlOk_cps _
    | some q =>
      rw [hr] at hp
      rcases List.mem_append.1 hp with hp | hp
      · exact base hp
      · simp at hp
        rcases hp with rfl | rfl
        · exact xmlOk_cp _
        · exact xmlOk_cp _
  unfold Elem.ok
  rw [ha, hv]; rfl

/-! ## Variants in order -/

/-- A variant more. -/
def put (c : CharObj) (v : Variant) : CharObj :=
  { c with vars := dset c.vars v.cp ((dget c.vars v.cp).getD [] ++ [v]) }

theorem addVariant_put {c : CharObj} {v : Variant} (hr : c.range = none) (hv : v.cp ≠ [])
    (hn : ∀ u ∈ (dget c.vars v.cp).getD [], u.key ≠ v.key) : c.addVariant v = .ok (put c v) := by
  unfold CharObj.addVariant put
  rw [if_neg (by simp [hr]), if_neg hv]
  cases hd : dget c.vars v.cp with
  | none => rfl
  | some vs =>
    rw [hd] at hn
    simp only [Option.getD_some] at hn
    dsimp only
    rw [if_neg]
    · rfl
    · intro h
      obtain ⟨u, hu, hk⟩ := List.mem_map.1 h
      exact hn u hu hk

theorem puts_get (L : List Variant) (c : CharObj) (k : Seq) :
    (dget (L.foldl put c).vars k).getD [] =
      (dget c.vars k).getD [] ++ L.filter (fun v => v.cp = k) := by
  induction L generalizing c with
  | nil => simp
  | cons v L ih =>
    rw [List.foldl_cons, ih]
    simp only [put, dget_dset]
    by_cases h : v.cp = k
    · subst h; simp
    · simp [h]

theorem puts_keys (L : List Variant) (c : CharObj) (k : Seq) :
    k ∈ (L.foldl put c).vars.map Prod.fst ↔ k ∈ c.vars.map Prod.fst ∨ ∃ v ∈ L, v.cp = k := by
  induction L generalizing c with
  | nil => simp
  | cons v L ih =>
    rw [List.foldl_cons, ih]
    simp only [put, ← dget_isSome, dget_dset]
    by_cases h : v.cp = k
    · simp [h]
    · simp [h]

theorem puts_nodup (L : List Variant) (c : CharObj) (h : (c.vars.map Prod.fst).Nodup) :
    ((L.foldl put c).vars.map Prod.fst).Nodup := by
  induction L generalizing c with
  | nil => exact h
  | cons v L ih => exact ih _ (dset_nodup h _ _)

theorem puts_rest (L : List Variant) (c : CharObj) : (L.foldl put c).cp = c.cp ∧
    (L.foldl put c).range = c.range ∧ (L.foldl put c).attrs = c.attrs := by
  induction L generalizing c with
  | nil => exact ⟨rfl, rfl, rfl⟩
  | cons v L ih => exact ih _

theorem flatMap_single {α β : Type} [DecidableEq α] {l : List α} (hn : l.Nodup) {k : α} (hk : k ∈ l)
    (X : List β) : l.flatMap (fun j => if j = k then X else []) = X := by
  induction l with
  | nil => simp at hk
  | cons a l ih =>
    rw [List.nodup_cons] at hn
    rw [List.flatMap_cons]
    rcases List.mem_cons.1 hk with rfl | hk
    · rw [if_pos rfl]
      have : l.flatMap (fun j => if j = k then X else []) = [] := by
        rw [List.flatMap_eq_nil_iff]
        intro x hx
        rw [if_neg]; rintro rfl; exact hn.1 hx
      rw [this, List.append_nil]
    · rw [if_neg (by rintro rfl; exact hn.1 hk), ih hn.2 hk, List.nil_append]

theorem filter_variants {c : CharObj} (h : c.VarWF) {k : Seq} :
    c.getVariants.filter (fun v => v.cp = k) = (dget c.vars k).getD [] := by
  unfold CharObj.getVariants
  rw [List.filter_flatMap]
  have hf : ∀ j, ((dget c.vars j).getD []).filter (fun v => decide (v.cp = k)) =
      if j = k then (dget c.vars k).getD [] else [] := by
    intro j
    have hall : ∀ v ∈ (dget c.vars j).getD [], v.cp = j := by
      intro v hv
      cases hd : dget c.vars j with
      | none => simp [hd] at hv
      | some vs => rw [hd] at hv; exact h.filed _ (mem_of_dget hd) v hv
    by_cases hj : j = k
    · subst hj
      rw [if_pos rfl, List.filter_eq_self]
      intro v hv; simp [hall v hv]
    · rw [if_neg hj, List.filter_eq_nil_iff]
      intro v hv; simp [hall v hv, hj]
  simp only [hf]
  by_cases hk : k ∈ c.vars.map Prod.fst
  · exact flatMap_single (((sortAsc_perm _ _).nodup_iff).2 h.keys) ((mem_sortAsc _).2 hk) _
  · rw [dget_eq_none.2 hk]
    simp

theorem sort_eq {l m : List Seq} (hl : l.Nodup) (hm : m.Nodup) (h : ∀ x, x ∈ l ↔ x ∈ m) :
    sortAsc id l = sortAsc id m := by
  have hp : (sortAsc id l).Perm (sortAsc id m) :=
    ((sortAsc_perm _ _).trans ((List.perm_ext_iff_of_nodup hl hm).2 h)).trans (sortAsc_perm _ _).symm
  exact hp.eq_of_pairwise (fun a b _ _ h1 h2 => le_antisymm h1 h2) (sortAsc_sorted _ _) (sortAsc_sorted _ _)

/-- Adding the variants of a character in the order they are listed gives the same list. -/
theorem puts_variants {c : CharObj} (h : c.VarWF) {d : CharObj} (hd : d.vars = []) :
    (c.getVariants.foldl put d).getVariants = c.getVariants := by
  have hkeys : sortAsc id ((c.getVariants.foldl put d).vars.map Prod.fst) =
      sortAsc id (c.vars.map Prod.fst) := by
    refine sort_eq (puts_nodup _ _ (by simp [hd])) h.keys fun k => ?_
    rw [puts_keys, hd]
    simp only [List.map_nil, List.not_mem_nil, false_or]
    constructor
    · rintro ⟨v, hv, rfl⟩
      obtain ⟨vs, h1, -⟩ := (CharObj.mem_getVariants h v).1 hv
      exact dget_isSome.1 (by rw [h1]; rfl)
    · intro hk
      obtain ⟨vs, hvs⟩ := Option.isSome_iff_exists.1 (dget_isSome.2 hk)
      obtain ⟨v, hv⟩ := List.exists_mem_of_ne_nil _ (h.nonempty _ (mem_of_dget hvs)).1
      have hcp := h.filed _ (mem_of_dget hvs) v hv
      exact ⟨v, (CharObj.mem_getVariants h v).2 ⟨vs, by rw [hcp]; exact hvs, hv⟩, hcp⟩
  have hg : ∀ e : CharObj, e.getVariants = (sortAsc id (e.vars.map Prod.fst)).flatMap
      (fun k => (dget e.vars k).getD []) := fun _ => rfl
  rw [hg (c.getVariants.foldl put d), hkeys, hg c, ← hg c]
  congr 1
  funext k
  rw [puts_get, hd, filter_variants h]
  simp [dget]

theorem put_wf {c : CharObj} {v : Variant} (h : c.VarWF) (hr : c.range = none) (hv : v.cp ≠ [])
    (hn : ∀ u ∈ (dget c.vars v.cp).getD [], u.key ≠ v.key) : (put c v).VarWF :=
  CharObj.addVariant_wf h (addVariant_put hr hv hn)

end Lgr.Props.C34
