import Verif.Props.MergeToolMeta
import Verif.Props.MergeSection
import Verif.Props.CompareTool

/-!
# C143: what `lgr_merge_set` prints
-/

namespace Lgr.Props.C143
open Lgr LGR Repertoire Xml MetaXml RulesXml DocXml Compare CompareTool MergeSet MergeTool C26 C28 C45 C99 C104

/-! ## Specification -/

/-- The text, unless there is none or it is empty. -/
def text1 : Option String → List String
  | none => []
  | some s => if s = "" then [] else [s]

/-- What the versions say. -/
def versionTexts (f : MetaXml.Txt → Option String) (gs : List Loaded) : List String :=
  gs.flatMap (fun g => (g.md.version.map (fun v => text1 (f v))).getD [])

/-- The best of the values there are. -/
def BestOf (better : String → String → Prop) (l : List (Option String)) (r : Option String) : Prop :=
  (∀ x, some x ∈ l → ∃ z, r = some z ∧ better z x) ∧ ∀ z, r = some z → some z ∈ l

/-- The metadata of a merge; the LGRs are in the order of their scripts. -/
structure MergedMeta (today : String) (gs : List Loaded) (m : Meta) : Prop where
  date : m.date = some today
  languages : C119.FirstOnce (gs.flatMap (fun g => g.md.languages)) m.languages
  scopes : ∀ v n, v ≠ "" → ((⟨some v, n⟩ : MetaXml.Txt) ∈ m.scopes ↔ ∃ g ∈ gs, (⟨some v, n⟩ : MetaXml.Txt) ∈ g.md.scopes)
  version : ∃ vs cs, C119.FirstOnce (versionTexts MetaXml.Txt.value gs) vs ∧ C119.FirstOnce (versionTexts MetaXml.Txt.note gs) cs ∧
    m.version = some ⟨some ("|".intercalate vs), some ("|".intercalate cs)⟩
  start : BestOf C140.NotLess (gs.map (fun g => g.md.validityStart)) m.validityStart
  end_ : BestOf C140.NotMore (gs.map (fun g => g.md.validityEnd)) m.validityEnd
  unicode : BestOf C140.NotLess (some "6.3.0" :: gs.map (fun g => g.md.unicodeVersion)) m.unicodeVersion
  description : ∃ v t, m.description = some ⟨some v, some t⟩ ∧
    (t = "text/html" ∨ t = "text/plain") ∧
    (t = "text/html" ↔ ∀ g ∈ gs, ∀ d, g.md.description = some d → d.note = some "text/html") ∧
    ∀ g ∈ gs, ∀ d x, g.md.description = some d → d.value = some x → x.toList <:+: v.toList

/-- The script of an LGR: its first language. -/
def script (g : Loaded) : String := g.md.languages.headD ""

/-- A name with the script before it. -/
def prefixedBy (s : String) : Option String → Option String
  | none => none
  | some r => if r = "" then none else some (s ++ "-" ++ r)

/-- The entries of a merge: the code points of all LGRs; their variants, all blocked, with the contexts of their LGR; and the
variants which make the sets complete. -/
structure MergedEntries (gs : List Loaded) (l : LGR) : Prop where
  codePoints : ∀ k, In l k ↔ ∃ g ∈ gs, In g.lgr k
  variants : ∀ g ∈ gs, ∀ k v, Maps g.lgr k v → ∃ u, Maps l k u ∧ u.cp = v.cp ∧ u.type = some "blocked" ∧
    (u.whenR = v.whenR ∧ u.notWhenR = v.notWhenR ∨
      u.whenR = prefixedBy (script g) v.whenR ∧ u.notWhenR = prefixedBy (script g) v.notWhenR)
  others : ∀ k u, Maps l k u → u.type = some "blocked" ∧
    ((∃ g ∈ gs, ∃ v, Maps g.lgr k v ∧ u.cp = v.cp ∧ u.comment = v.comment ∧
        u.whenR = prefixedBy (script g) v.whenR ∧ u.notWhenR = prefixedBy (script g) v.notWhenR) ∨
      u = ⟨u.cp, some "blocked", none, none, some "New variant for merge to keep transitivity", []⟩ ∧
        Relation.EqvGen (fun x y => ∃ g ∈ gs, Pair g.lgr x y) k u.cp)
  sets : ∀ x y, Relation.EqvGen (Pair l) x y ↔ Relation.EqvGen (fun x y => ∃ g ∈ gs, Pair g.lgr x y) x y
  symmetric : (∀ g ∈ gs, ∀ x y, Pair g.lgr x y → Pair g.lgr y x) → ∀ x y, Pair l x y → Pair l y x

/-- Each document is read as the LGR at its place. -/
def Read (R : Reader) (ds : List Doc) (gs : List Loaded) : Prop :=
  List.Forall₂ (fun d g => (parseDoc (PopulateTool.reader R) [] d).2 = .ok (some g)) ds gs

/-- `docs` are the rules sections of the LGRs, with their scripts. -/
def Sections (R : Reader) (ds : List Doc) (gs : List Loaded) (docs : List C117.Doc) : Prop :=
  List.Forall₂ (fun g doc => doc.script = script g ∧ ∃ d ∈ ds, (parseDoc (PopulateTool.reader R) [] d).2 = .ok (some g) ∧
    doc.es = C140.sect d) gs docs

/-! ## Metadata -/

theorem best_fold {op : List Char → List Char → List Char} {rel : List Char → List Char → Prop}
    (h1 : ∀ a b, op a b = a ∨ op a b = b) (h2 : ∀ a b, rel (op a b) a ∧ rel (op a b) b) (h3 : ∀ a, rel a a)
    (h4 : ∀ a b c, rel a b → rel b c → rel a c) (l : List (Option (List Char))) : ∀ o,
    (∀ x, some x ∈ o :: l → ∃ z, l.foldl (Metadata.compareObjects op) o = some z ∧ rel z x) ∧
    ∀ z, l.foldl (Metadata.compareObjects op) o = some z → some z ∈ o :: l := by
  induction l with
  | nil =>
    intro o
    refine ⟨fun x hx => ?_, fun z hz => by simpa using hz.symm⟩
    rw [List.mem_singleton] at hx
    exact ⟨x, hx.symm, h3 x⟩
  | cons a l ih =>
    intro o
    obtain ⟨i1, i2⟩ := ih (Metadata.compareObjects op o a)
    rw [List.foldl_cons]
    have key : ∀ x, some x = o ∨ some x = a → ∃ z, Metadata.compareObjects op o a = some z ∧ rel z x := by
      intro x hx
      cases o with
      | none =>
        rcases hx with hx | hx
        · cases hx
        · exact ⟨x, hx.symm, h3 x⟩
      | some y =>
        cases a with
        | none =>
          rcases hx with hx | hx
          · exact ⟨x, hx.symm, h3 x⟩
          · cases hx
        | some w =>
          refine ⟨op y w, rfl, ?_⟩
          rcases hx with hx | hx
          · rw [Option.some.inj hx]; exact (h2 y w).1
          · rw [Option.some.inj hx]; exact (h2 y w).2
    constructor
    · intro x hx
      rw [List.mem_cons, List.mem_cons] at hx
      rcases hx with hx | hx | hx
      · obtain ⟨z, hz, hr⟩ := key x (.inl hx)
        obtain ⟨w, hw, hr'⟩ := i1 z (by rw [hz]; exact List.mem_cons_self)
        exact ⟨w, hw, h4 _ _ _ hr' hr⟩
      · obtain ⟨z, hz, hr⟩ := key x (.inr hx)
        obtain ⟨w, hw, hr'⟩ := i1 z (by rw [hz]; exact List.mem_cons_self)
        exact ⟨w, hw, h4 _ _ _ hr' hr⟩
      · exact i1 x (List.mem_cons_of_mem _ hx)
    · intro z hz
      rcases List.mem_cons.1 (i2 z hz) with h | h
      · rcases choice h1 h.symm with h | h
        · rw [h]; exact List.mem_cons_self
        · rw [← h]; simp
      · exact List.mem_cons_of_mem _ (List.mem_cons_of_mem _ h)

theorem max_best (a b : List Char) : ¬ Metadata.pyMax a b < a ∧ ¬ Metadata.pyMax a b < b := by
  unfold Metadata.pyMax
  split
  · rename_i h; exact ⟨fun h' => lt_irrefl _ (lt_trans h h'), lt_irrefl _⟩
  · rename_i h; exact ⟨lt_irrefl _, h⟩

theorem min_best (a b : List Char) : ¬ a < Metadata.pyMin a b ∧ ¬ b < Metadata.pyMin a b := by
  unfold Metadata.pyMin
  split
  · rename_i h; exact ⟨fun h' => lt_irrefl _ (lt_trans h h'), lt_irrefl _⟩
  · rename_i h; exact ⟨lt_irrefl _, h⟩

theorem not_lt_trans (a b c : List Char) (h1 : ¬ a < b) (h2 : ¬ b < c) : ¬ a < c :=
  not_lt.2 (le_trans (not_lt.1 h2) (not_lt.1 h1))

/-- From lists of characters to strings. -/
theorem best_strings {rel : List Char → List Char → Prop} {l : List (Option String)} {r : Option (List Char)}
    (h : (∀ x, some x ∈ l.map (Option.map String.toList) → ∃ z, r = some z ∧ rel z x) ∧
      ∀ z, r = some z → some z ∈ l.map (Option.map String.toList)) :
    BestOf (fun z x => rel z.toList x.toList) l (r.map String.ofList) := by
  constructor
  · intro x hx
    obtain ⟨z, hz, hr⟩ := h.1 x.toList (List.mem_map.2 ⟨some x, hx, rfl⟩)
    exact ⟨String.ofList z, by rw [hz]; rfl, by show rel (String.ofList z).toList _; rw [String.toList_ofList]; exact hr⟩
  · intro z hz
    cases r with
    | none => cases hz
    | some w =>
      cases hz
      obtain ⟨o, ho, e⟩ := List.mem_map.1 (h.2 w rfl)
      cases o with
      | none => cases e
      | some y =>
        cases e
        rw [String.ofList_toList]
        exact ho

theorem fold_start : ∀ (l : List Metadata.Metadata) (o : Metadata.Metadata),
    (l.foldl MergeXml.metaStep o).validityStart =
      (l.map (fun m => m.validityStart)).foldl (Metadata.compareObjects Metadata.pyMax) o.validityStart := by
  intro l
  induction l with
  | nil => intro o; rfl
  | cons m l ih => intro o; exact ih _

theorem fold_end : ∀ (l : List Metadata.Metadata) (o : Metadata.Metadata),
    (l.foldl MergeXml.metaStep o).validityEnd =
      (l.map (fun m => m.validityEnd)).foldl (Metadata.compareObjects Metadata.pyMin) o.validityEnd := by
  intro l
  induction l with
  | nil => intro o; rfl
  | cons m l ih => intro o; exact ih _

theorem fold_unicode : ∀ (l : List Metadata.Metadata) (o : Metadata.Metadata),
    (l.foldl MergeXml.metaStep o).unicodeVersion =
      (l.map (fun m => m.unicodeVersion)).foldl (Metadata.compareObjects Metadata.pyMax) o.unicodeVersion := by
  intro l
  induction l with
  | nil => intro o; rfl
  | cons m l ih => intro o; exact ih _

theorem drop_none {rel : List Char → List Char → Prop} {l : List (Option (List Char))} {r : Option (List Char)}
    (h : (∀ x, some x ∈ none :: l → ∃ z, r = some z ∧ rel z x) ∧ ∀ z, r = some z → some z ∈ none :: l) :
    (∀ x, some x ∈ l → ∃ z, r = some z ∧ rel z x) ∧ ∀ z, r = some z → some z ∈ l :=
  ⟨fun x hx => h.1 x (List.mem_cons_of_mem _ hx), fun z hz => (List.mem_cons.1 (h.2 z hz)).resolve_left (by simp)⟩

theorem said_texts (gs : List Loaded) : C119.said (fun v => some v.value) (gs.map (fun g => plainMeta g.md)) =
      versionTexts MetaXml.Txt.value gs ∧
    C119.said (fun v => v.comment) (gs.map (fun g => plainMeta g.md)) = versionTexts MetaXml.Txt.note gs := by
  have hs : ∀ o, C119.some1 o = text1 o := fun o => by cases o <;> rfl
  unfold C119.said versionTexts
  rw [List.flatMap_map, List.flatMap_map]
  constructor <;> refine List.flatMap_congr fun g _ => ?_
  · unfold C119.said1
    show (match g.md.version.map (fun v => (⟨v.value.getD "", v.note⟩ : Metadata.Version)) with | none => _ | some v => _) = _
    cases g.md.version with
    | none => rfl
    | some v =>
      show C119.some1 (some (v.value.getD "")) = text1 v.value
      rw [hs]
      cases v.value <;> rfl
  · unfold C119.said1
    show (match g.md.version.map (fun v => (⟨v.value.getD "", v.note⟩ : Metadata.Version)) with | none => _ | some v => _) = _
    cases g.md.version with
    | none => rfl
    | some v => exact hs _

theorem merged_meta (today : String) (gs : List Loaded) (r : RefManager) : MergedMeta today gs (mergeMeta today gs r) := by
  obtain ⟨l1, l2, l3⟩ := C119.merged_lists today.toList (gs.map (fun g => plainMeta g.md))
  refine ⟨?_, ?_, ?_, ?_, ?_, ?_, ?_, ?_⟩
  · show Option.map String.ofList (MergeXml.mergeMetadata today.toList (gs.map (fun g => plainMeta g.md))).date = _
    rw [l3]
    show some (String.ofList today.toList) = _
    rw [String.ofList_toList]
  · rw [List.flatMap_map] at l1
    exact l1
  · intro v n hv
    show (⟨some v, n⟩ : MetaXml.Txt) ∈ (MergeXml.mergeMetadata _ _).scopes.map _ ↔ _
    rw [List.mem_map]
    constructor
    · rintro ⟨s, hs, e⟩
      rw [l2.2.1, List.mem_flatMap] at hs
      obtain ⟨p, hp, hs⟩ := hs
      obtain ⟨g, hg, rfl⟩ := mem_plain.1 hp
      obtain ⟨q, hq, rfl⟩ := List.mem_map.1 hs
      refine ⟨g, hg, ?_⟩
      dsimp only at e
      cases hqv : q.value with
      | none => simp [hqv] at e
      | some w =>
        simp only [hqv, Option.getD_some, MetaXml.Txt.mk.injEq] at e
        split at e
        · simp at e
        · obtain ⟨e1, e2⟩ := e
          cases e1
          rw [← e2, ← hqv]
          exact hq
    · rintro ⟨g, hg, hs⟩
      refine ⟨⟨v, n⟩, ?_, ?_⟩
      · rw [l2.2.1, List.mem_flatMap]
        exact ⟨_, mem_plain.2 ⟨g, hg, rfl⟩, List.mem_map.2 ⟨_, hs, rfl⟩⟩
      · dsimp only
        rw [if_neg hv]
  · obtain ⟨vs, cs, h1, h2, h3⟩ := C119.merged_version today.toList (gs.map (fun g => plainMeta g.md))
    obtain ⟨e1, e2⟩ := said_texts gs
    rw [e1] at h1
    rw [e2] at h2
    refine ⟨vs, cs, h1, h2, ?_⟩
    show Option.map _ (MergeXml.mergeMetadata today.toList _).version = _
    rw [h3]
    rfl
  · have := best_fold (op := Metadata.pyMax) (rel := fun a b => ¬ a < b) max_one max_best (fun a => lt_irrefl a) not_lt_trans
      (gs.map (fun g => g.md.validityStart.map String.toList)) none
    have h := best_strings (l := gs.map (fun g => g.md.validityStart)) (by rw [List.map_map]; exact drop_none this)
    have e : (mergeMeta today gs r).validityStart =
      ((gs.map (fun g => g.md.validityStart.map String.toList)).foldl (Metadata.compareObjects Metadata.pyMax) none).map
        String.ofList := by
      show Option.map String.ofList (List.foldl MergeXml.metaStep _ _).validityStart = _
      rw [fold_start, List.map_map]; rfl
    rw [e]
    exact h
  · have := best_fold (op := Metadata.pyMin) (rel := fun a b => ¬ b < a) min_one min_best (fun a => lt_irrefl a)
      (fun a b c h1 h2 => not_lt_trans c b a h2 h1)
      (gs.map (fun g => g.md.validityEnd.map String.toList)) none
    have h := best_strings (l := gs.map (fun g => g.md.validityEnd)) (by rw [List.map_map]; exact drop_none this)
    have e : (mergeMeta today gs r).validityEnd =
      ((gs.map (fun g => g.md.validityEnd.map String.toList)).foldl (Metadata.compareObjects Metadata.pyMin) none).map
        String.ofList := by
      show Option.map String.ofList (List.foldl MergeXml.metaStep _ _).validityEnd = _
      rw [fold_end, List.map_map]; rfl
    rw [e]
    exact h
  · have := best_fold (op := Metadata.pyMax) (rel := fun a b => ¬ a < b) max_one max_best (fun a => lt_irrefl a) not_lt_trans
      (gs.map (fun g => g.md.unicodeVersion.map String.toList)) (some "6.3.0".toList)
    have h := best_strings (l := some "6.3.0" :: gs.map (fun g => g.md.unicodeVersion)) (by
      rw [List.map_cons, List.map_map]; exact this)
    have e : (mergeMeta today gs r).unicodeVersion =
      ((gs.map (fun g => g.md.unicodeVersion.map String.toList)).foldl (Metadata.compareObjects Metadata.pyMax)
        (some "6.3.0".toList)).map String.ofList := by
      show Option.map String.ofList (List.foldl MergeXml.metaStep _ _).unicodeVersion = _
      rw [fold_unicode, List.map_map]; rfl
    rw [e]
    exact h
  · obtain ⟨D, h1, h2, h3, h4, -⟩ := C119.merged_description today.toList (gs.map (fun g => plainMeta g.md))
    have hp : ∀ g : Loaded, g.md.description = none ∧ (plainMeta g.md).description = none ∨ ∃ d, g.md.description = some d ∧
        (plainMeta g.md).description = some ⟨fmt d.value, d.note⟩ := by
      intro g
      show _ ∨ ∃ d, _ ∧ g.md.description.map _ = _
      cases h : g.md.description with
      | none => exact .inl ⟨rfl, by show g.md.description.map _ = _; rw [h]; rfl⟩
      | some d => exact .inr ⟨d, rfl, rfl⟩
    have hm : (mergeMeta today gs r).description = some ⟨some D.value, D.type⟩ := by
      show Option.map _ (MergeXml.mergeMetadata _ _).description = _
      rw [h1]; rfl
    have hall : (∀ m ∈ gs.map (fun g => plainMeta g.md), ∀ d, m.description = some d → d.type = some "text/html") ↔
        ∀ g ∈ gs, ∀ d, g.md.description = some d → d.note = some "text/html" := by
      constructor
      · intro h g hg d hd
        rcases hp g with ⟨h', -⟩ | ⟨d', h', e⟩
        · rw [hd] at h'; cases h'
        · rw [hd] at h'; cases h'
          exact h _ (mem_plain.2 ⟨g, hg, rfl⟩) _ e
      · intro h m hmm d hd
        obtain ⟨g, hg, rfl⟩ := mem_plain.1 hmm
        rcases hp g with ⟨-, h'⟩ | ⟨d', h', e⟩
        · rw [hd] at h'; cases h'
        · rw [hd] at e; cases e
          exact h g hg d' h'
    have h4' : ∀ g ∈ gs, ∀ d x, g.md.description = some d → d.value = some x → x.toList <:+: D.value.toList := by
      intro g hg d x hd hx
      rcases hp g with ⟨h', -⟩ | ⟨d', h', e⟩
      · rw [hd] at h'; cases h'
      · rw [hd] at h'; cases h'
        have := h4 _ (mem_plain.2 ⟨g, hg, rfl⟩) _ e
        rw [C140.fmt_some hx] at this
        exact this
    by_cases ha : ∀ g ∈ gs, ∀ d, g.md.description = some d → d.note = some "text/html"
    · refine ⟨D.value, "text/html", by rw [hm, (h2 (hall.2 ha)).1], .inl rfl, ⟨fun _ => ha, fun _ => rfl⟩, h4'⟩
    · have hn : ∃ m ∈ gs.map (fun g => plainMeta g.md), ∃ d, m.description = some d ∧ d.type ≠ some "text/html" := by
        by_contra hc
        refine ha (hall.1 fun m hm d hd => ?_)
        by_contra ht
        exact hc ⟨m, hm, d, hd, ht⟩
      exact ⟨D.value, "text/plain", by rw [hm, h3 hn], .inr rfl, ⟨fun e => absurd e (by decide), fun e => absurd e ha⟩, h4'⟩

/-! ## Reading does not depend on the results of conformance checks -/

/-- The same LGR and the same position. -/
def Eqv (s t : PState) : Prop := s.lgr = t.lgr ∧ s.prev = t.prev

theorem guard_eqv {force : Bool} {s t : PState} (h : Eqv s t) (r : LGR × Except Err Unit) :
    (Xml.guard force s r).2 = (Xml.guard force t r).2 ∧ Eqv (Xml.guard force s r).1 (Xml.guard force t r).1 := by
  obtain ⟨g, o⟩ := r
  cases o with
  | ok u => exact ⟨rfl, rfl, h.2⟩
  | error e =>
    unfold Xml.guard
    dsimp only
    split
    · exact ⟨rfl, rfl, h.2⟩
    · exact ⟨rfl, rfl, h.2⟩

theorem loop_eqv {α : Type} {f : PState → α → PState × Except Err Unit}
    (hf : ∀ s t a, Eqv s t → (f s a).2 = (f t a).2 ∧ Eqv (f s a).1 (f t a).1) (l : List α) :
    ∀ s t, Eqv s t → (forEach f s l).2 = (forEach f t l).2 ∧ Eqv (forEach f s l).1 (forEach f t l).1 := by
  induction l with
  | nil => intro s t h; exact ⟨rfl, h⟩
  | cons a l ih =>
    intro s t h
    obtain ⟨h1, h2⟩ := hf s t a h
    unfold forEach
    generalize f s a = r at h1 h2
    generalize f t a = r' at h1 h2
    obtain ⟨s1, o⟩ := r
    obtain ⟨t1, o'⟩ := r'
    dsimp only at h1 h2 ⊢
    subst h1
    cases o with
    | error e => exact ⟨rfl, h2⟩
    | ok u => exact ih s1 t1 h2

theorem order_eqv {s t : PState} (h : Eqv s t) (cp : Seq) : Eqv (orderCheck s cp) (orderCheck t cp) := by
  unfold orderCheck PState.error
  dsimp only
  refine ⟨?_, ?_⟩
  · split <;> split <;> (try split) <;> (try split) <;> exact h.1
  · split <;> split <;> (try split) <;> (try split) <;> simp_all [Eqv]

theorem elem_eqv {db : UniDb} {force : Bool} (s t : PState) (e : Elem) (h : Eqv s t) :
    (parseElem db force s e).2 = (parseElem db force t e).2 ∧ Eqv (parseElem db force s e).1 (parseElem db force t e).1 := by
  unfold parseElem
  split
  · cases getCp e.attrs with
    | error er => exact ⟨rfl, h⟩
    | ok cp =>
      dsimp only
      have ho := order_eqv h cp
      obtain ⟨h1, h2⟩ := guard_eqv (force := force) ho ((orderCheck s cp).lgr.addCp db (.seq cp) (optsOf force e.attrs))
      rw [show (orderCheck t cp).lgr = (orderCheck s cp).lgr from ho.1.symm]
      generalize Xml.guard force (orderCheck s cp) ((orderCheck s cp).lgr.addCp db (.seq cp) (optsOf force e.attrs)) = r at h1 h2
      generalize Xml.guard force (orderCheck t cp) ((orderCheck s cp).lgr.addCp db (.seq cp) (optsOf force e.attrs)) = r' at h1 h2
      obtain ⟨s1, o⟩ := r
      obtain ⟨t1, o'⟩ := r'
      dsimp only at h1 h2 ⊢
      subst h1
      cases o with
      | error e => exact ⟨rfl, h2⟩
      | ok u =>
        refine loop_eqv ?_ _ s1 t1 h2
        intro s t a h
        unfold parseVar
        cases getCp a with
        | error er => exact ⟨rfl, h⟩
        | ok v =>
          dsimp only
          rw [show t.lgr = s.lgr from h.1.symm]
          exact guard_eqv h _
  · split
    · cases getHex e.attrs "first-cp" with
      | error er => exact ⟨rfl, h⟩
      | ok f =>
        dsimp only
        cases getHex e.attrs "last-cp" with
        | error er => exact ⟨rfl, h⟩
        | ok l =>
          dsimp only
          rw [show t.lgr = s.lgr from h.1.symm]
          exact guard_eqv h _
    · exact ⟨rfl, h⟩

theorem data_eqv {db : UniDb} {force : Bool} {g : LGR} {cs cs' : Rfc7940.Results} {es : List Elem} {p : PState}
    (h : parseData db force { lgr := g, checks := cs } es = (p, .ok ())) :
    ∃ p', parseData db force { lgr := g, checks := cs' } es = (p', .ok ()) ∧ p'.lgr = p.lgr := by
  unfold parseData at h ⊢
  dsimp only at h ⊢
  obtain ⟨h1, h2⟩ := loop_eqv (fun s t a => elem_eqv (db := db) (force := force) s t a) es
    { lgr := g, checks := cs, prev := [] } { lgr := g, checks := cs', prev := [] } ⟨rfl, rfl⟩
  generalize forEach (parseElem db force) { lgr := g, checks := cs, prev := [] } es = r at h h1 h2
  generalize forEach (parseElem db force) { lgr := g, checks := cs', prev := [] } es = r' at h1 h2 ⊢
  obtain ⟨s1, o⟩ := r
  obtain ⟨t1, o'⟩ := r'
  dsimp only at h1 h2 h ⊢
  subst h1
  cases o with
  | error e => simp at h
  | ok u =>
    simp only [Prod.mk.injEq, and_true] at h
    refine ⟨_, rfl, ?_⟩
    rw [← h]
    exact h2.1.symm

/-! ## The steps of the tool -/

variable {E : MergeTool.Env} {R : Reader}

theorem main_printed {ds : List Doc} {d' : Doc} (h : MergeTool.main E R ds = .printed d') :
    ds.length ≠ 1 ∧ ∃ gs g m, readDocs R ds = .ok (some gs) ∧ mergeLoaded E R gs = .ok g ∧
      rereadDoc R g = .ok (some m) ∧ serializeDoc m = .ok d' := by
  unfold MergeTool.main at h
  split at h
  · cases h
  rename_i hl
  refine ⟨hl, ?_⟩
  split at h
  · cases h
  · cases h
  rename_i gs hgs
  split at h
  · cases h
  rename_i g hg
  split at h
  · cases h
  · cases h
  rename_i m hm
  unfold printed at h
  dsimp only at h
  split at h
  · cases h
  rename_i d hd
  cases h
  exact ⟨gs, g, m, hgs, hg, hm, hd⟩

theorem readDocs_iff : ∀ {ds : List Doc} {gs : List Loaded}, readDocs R ds = .ok (some gs) ↔ Read R ds gs
  | [], gs => by
    unfold readDocs Read
    constructor
    · intro h; cases h; exact .nil
    · intro h; cases h; rfl
  | d :: ds, gs => by
    unfold readDocs
    constructor
    · intro h
      split at h
      · cases h
      · cases h
      · rename_i g hg
        split at h
        · cases h
        · cases h
        · rename_i gs' hgs
          cases h
          exact .cons hg (readDocs_iff.1 hgs)
    · intro h
      cases h with
      | cons h1 h2 =>
        rw [h1]
        dsimp only
        rw [readDocs_iff.2 h2]

/-- What is read from documents whose texts survive. -/
theorem sources (hx : C99.Sound R.x) {ds : List Doc} {gs : List Loaded} (hd : ∀ d ∈ ds, DocOk (PopulateTool.reader R) d)
    (h : Read R ds gs) : ∀ g ∈ gs, ∃ d ∈ ds, C130.Source (PopulateTool.reader R) d g := by
  induction h with
  | nil => intro g hg; simp at hg
  | cons h1 _ ih =>
    intro g hg
    rcases List.mem_cons.1 hg with rfl | hg
    · exact ⟨_, by simp, C130.source (R := PopulateTool.reader R) hx (C130.reader_safe R) (hd _ (by simp)) h1⟩
    · obtain ⟨d, hdm, h⟩ := ih (fun d hdm => hd d (by simp [hdm])) g hg
      exact ⟨d, by simp [hdm], h⟩

theorem input_good {d : Doc} {g : Loaded} (h : C130.Source (PopulateTool.reader R) d g) :
    C45.Good (inputOf E R g) ∧ ∀ p ∈ (inputOf E R g).lgr.refs.refs, RefOk p := by
  have hr : (inputOf E R g).lgr.refs = managerOf g.md := h.lgr.refs
  refine ⟨⟨h.lgr.inv.wf, h.lgr.intact, ?_⟩, ?_⟩
  · rw [hr]
    unfold managerOf
    dsimp only
    rw [List.map_map]
    exact h.md.writable.ids
  · rw [hr]
    exact refOk_read h.md

theorem again_safe (R : Reader) : Safe (MergeTool.again R).db (MergeTool.again R).strict (MergeTool.again R).force := .inr (.inl rfl)

theorem sorted_perm (gs : List Loaded) : (sorted gs).Perm gs := sortAsc_perm _ _

theorem serialize_parts {g : Loaded} {d : Doc} (h : serializeDoc g = .ok d) :
    ∃ ms, serializeMeta g.md = .ok ms ∧ d.metaE = some ms ∧ serializeData g.lgr.rep = .ok d.data ∧
      d.rules = some (serializeRules g.rules) := by
  unfold serializeDoc at h
  split at h
  · cases h
  rename_i ms hms
  split at h
  · cases h
  rename_i es hes
  cases h
  exact ⟨ms, hms, rfl, hes, rfl⟩

theorem parse_parts {R : Reader} {cs : Rfc7940.Results} {d : Doc} {g : Loaded} (h : (parseDoc R cs d).2 = .ok (some g)) :
    ∃ ms m p t, d.metaE = some ms ∧ parseMeta R.x R.force cs ms = (m, .ok ()) ∧ g.md = m.md ∧
      parseData R.db R.force { lgr := newLgr R m.md, checks := m.checks } d.data = (p, .ok ()) ∧ g.lgr = p.lgr ∧
      parseRules R.parser (newRules p.lgr, {}) (C140.sect d) = ((g.rules, t), .ok ()) := by
  unfold parseDoc at h
  split at h
  · dsimp only at h
    unfold orphan at h
    split at h
    · cases h
    · split at h <;> cases h
  rename_i ms hms
  split at h
  · cases h
  rename_i m hm
  split at h
  · cases h
  rename_i p hp
  split at h
  · cases h
  rename_i r t hr
  cases h
  exact ⟨ms, m, p, t, hms, hm, rfl, hp, rfl, hr⟩

theorem written_ok {r : Repertoire} {es : List Elem} (h : serializeData r = .ok es) : ∀ e ∈ es, ElemOk e := by
  unfold serializeData at h
  dsimp only at h
  split at h
  · rename_i hall
    cases h
    intro e he
    have := List.all_eq_true.1 hall e he
    unfold Elem.ok at this
    simp only [Bool.and_eq_true, List.all_eq_true] at this
    exact ⟨fun q hq => this.1 q hq, fun a ha q hq => this.2 a ha q hq⟩
  · cases h

/-- What is written and read: `serializeDoc` and `parseDoc` with the metadata as they were. -/
theorem reread_parts (hx : C99.Sound R.x) {g m : Loaded} (hM : MGood R.x true g.md) (h : rereadDoc R g = .ok (some m)) :
    m.md = { g.md with nextId := 0 } ∧ MergeSet.reread { g.lgr with refs := managerOf g.md } = .ok m.lgr ∧
    C104.Good none true true (managerOf m.md) m.lgr ∧
    ∃ t, parseRules (MergeTool.again R).parser (newRules m.lgr, {}) (serializeRules g.rules) = ((m.rules, t), .ok ()) := by
  unfold rereadDoc at h
  split at h
  · cases h
  rename_i d hd
  obtain ⟨ms, s1, s2, s3, s4⟩ := serialize_parts hd
  obtain ⟨ms', mm, p, t, p1, p2, p3, p4, p5, p6⟩ := parse_parts h
  rw [s2] at p1
  cases p1
  obtain ⟨es, s', m1, m2, m3, -⟩ := meta_round_trip_partial (x := R.x) (force := true) hx.cdata hM.writable []
  rw [s1] at m1
  cases m1
  have p2' : parseMeta R.x true [] ms = (mm, .ok ()) := p2
  rw [m2] at p2'
  have hmm := (Prod.mk.inj p2').1
  subst hmm
  have hmd : m.md = { g.md with nextId := 0 } := p3.trans m3
  have hman : managerOf s'.md = { managerOf g.md with nextId := 0 } := by rw [m3]; rfl
  refine ⟨hmd, ?_, ?_, ?_⟩
  · have p4' : parseData none true { lgr := newLgr (MergeTool.again R) s'.md, checks := s'.checks } d.data = (p, .ok ()) := p4
    obtain ⟨p', q1, q2⟩ := data_eqv (cs' := {}) p4'
    unfold MergeSet.reread
    dsimp only
    rw [s3]
    dsimp only
    have hn : newLgr (MergeTool.again R) s'.md = { refs := { managerOf g.md with nextId := 0 }, raiseInvalid := true } := by
      unfold newLgr; rw [hman]; rfl
    rw [hn] at q1
    have q1' : parseData none true { lgr := { refs := { managerOf g.md with nextId := 0 }, raiseInvalid := true } } d.data =
      (p', .ok ()) := q1
    rw [q1']
    dsimp only
    rw [q2, p5]
  · rw [p3, p5]
    refine good_data (db := none) (strict := true) (force := true) (fun _ => ?_) (.inr (.inl rfl)) (written_ok s3) p4
    rw [hman]
    show (dget (managerOf g.md).refs "").isSome = false
    rw [manager_get]
    exact hM.ids rfl
  · rw [p5]
    refine ⟨t, ?_⟩
    unfold C140.sect at p6
    rw [s4] at p6
    exact p6

/-! ## Entries -/

theorem script_input (g : Loaded) : (inputOf E R g).script = script g := by
  unfold Input.script script inputOf
  dsimp only
  cases g.md.languages <;> rfl

theorem prefixed_eq (s : String) (o : Option String) : preRule s o = prefixedBy s o := by
  cases o with
  | none => rfl
  | some r =>
    unfold preRule prefixedBy pre
    dsimp only
    by_cases h : r = "" <;> simp [h]

theorem pair_inputs (gs : List Loaded) (x y : Seq) :
    PairIn (gs.map (inputOf E R)) x y ↔ ∃ g ∈ gs, Pair g.lgr x y := by
  unfold PairIn
  constructor
  · rintro ⟨i, hi, h⟩
    obtain ⟨g, hg, rfl⟩ := List.mem_map.1 hi
    exact ⟨g, hg, h⟩
  · rintro ⟨g, hg, h⟩
    exact ⟨_, List.mem_map.2 ⟨g, hg, rfl⟩, h⟩

theorem merged_entries {gs : List Loaded} (hg : ∀ g ∈ gs, C45.Good (inputOf E R g)) {l : LGR}
    (h : mergeSet E.ord validId (gs.map (inputOf E R)) = .ok l) : MergedEntries gs l := by
  have hg' : ∀ i ∈ gs.map (inputOf E R), C45.Good i := by
    intro i hi
    obtain ⟨g, hgm, rfl⟩ := List.mem_map.1 hi
    exact hg g hgm
  have hpair : PairIn (gs.map (inputOf E R)) = fun x y => ∃ g ∈ gs, Pair g.lgr x y := by
    funext x y
    exact propext (pair_inputs gs x y)
  refine ⟨?_, ?_, ?_, ?_, ?_⟩
  · intro k
    rw [merge_code_points E.ord validId _ hg' l h k]
    constructor
    · rintro ⟨i, hi, h⟩
      obtain ⟨g, hgm, rfl⟩ := List.mem_map.1 hi
      exact ⟨g, hgm, h⟩
    · rintro ⟨g, hgm, h⟩
      exact ⟨_, List.mem_map.2 ⟨g, hgm, rfl⟩, h⟩
  · intro g hgm k v hv
    obtain ⟨u, h1, h2, h3, h4⟩ := merge_variants_partial E.ord validId _ hg' l h (inputOf E R g)
      (List.mem_map.2 ⟨g, hgm, rfl⟩) k v hv
    rw [script_input, prefixed_eq, prefixed_eq] at h4
    exact ⟨u, h1, h2, h3, h4⟩
  · intro k u hu
    obtain ⟨h1, h2⟩ := merge_no_other_variants E.ord validId _ hg' l h k u hu
    rw [hpair] at h2
    refine ⟨h1, h2.imp ?_ id⟩
    rintro ⟨i, hi, v, hv, e1, e2, e3, e4⟩
    obtain ⟨g, hgm, rfl⟩ := List.mem_map.1 hi
    rw [script_input, prefixed_eq] at e3 e4
    exact ⟨g, hgm, v, hv, e1, e2, e3, e4⟩
  · intro x y
    have := merge_variant_sets E.ord validId _ hg' l h x y
    rw [hpair] at this
    exact this
  · intro hs x y hp
    refine merge_symmetric E.ord validId _ hg' ?_ l h x y hp
    intro i hi
    obtain ⟨g, hgm, rfl⟩ := List.mem_map.1 hi
    exact hs g hgm

/-- The entries do not depend on the order in which they are listed. -/
theorem entries_same {gs : List Loaded} {l l' : LGR} (h : MergedEntries gs l)
    (h1 : ∀ k c, l.rep.lookup k = some c → ∃ c', l'.rep.lookup k = some c' ∧ C34.Same c c')
    (h2 : ∀ k, (l'.rep.lookup k).isSome → (l.rep.lookup k).isSome) : MergedEntries gs l' := by
  have hin : ∀ k, In l' k ↔ In l k := by
    intro k
    constructor
    · rintro ⟨c, hc⟩
      exact Option.isSome_iff_exists.1 (h2 k (by rw [hc]; rfl))
    · rintro ⟨c, hc⟩
      obtain ⟨c', hc', -⟩ := h1 k c hc
      exact ⟨c', hc'⟩
  have hmaps : ∀ k u, Maps l' k u ↔ Maps l k u := by
    intro k u
    constructor
    · rintro ⟨c', hc', hu⟩
      obtain ⟨c, hc⟩ := (hin k).1 ⟨c', hc'⟩
      obtain ⟨c2, hc2, hs⟩ := h1 k c hc
      rw [hc'] at hc2
      cases hc2
      exact ⟨c, hc, by rw [hs.vars]; exact hu⟩
    · rintro ⟨c, hc, hu⟩
      obtain ⟨c', hc', hs⟩ := h1 k c hc
      exact ⟨c', hc', by rw [← hs.vars]; exact hu⟩
  have hpair : Pair l' = Pair l := by
    funext x y
    unfold Pair
    exact propext (exists_congr fun v => and_congr_left fun _ => hmaps x v)
  refine ⟨fun k => (hin k).trans (h.codePoints k), ?_, fun k u hu => h.others k u ((hmaps k u).1 hu), ?_, ?_⟩
  · intro g hg k v hv
    obtain ⟨u, hu, h'⟩ := h.variants g hg k v hv
    exact ⟨u, (hmaps k u).2 hu, h'⟩
  · rw [hpair]; exact h.sets
  · rw [hpair]; exact h.symmetric

/-! ## The rules section -/

theorem acts_zip {ns : List Node} {as : List Action} (h : List.Forall₂ (fun n a => parseAction n = .ok a) ns as) :
    as.zip (ns.map MergeXml.render) = ns.filterMap C117.actOf := by
  induction h with
  | nil => rfl
  | cons h _ ih =>
    rw [List.map_cons, List.zip_cons_cons, ih, List.filterMap_cons_some (show C117.actOf _ = some _ by
      simp only [C117.actOf, h]; rfl)]

/-- The section of an LGR as C117 sees it, with what the loop over the set adds. -/
def docOf (ord : SetOrder) (i : Input) (s : SState) (g : Loaded) (es : List Node) : C117.Doc :=
  let p := partOf ord i s g
  { script := p.script, es := es, map := p.map, asked := p.asked, other := p.other }

theorem docOf_part {ord : SetOrder} {i : Input} {s : SState} {g : Loaded} {es : List Node} (h : C140.ReadFrom es g.rules) :
    C117.part (docOf ord i s g es) = partOf ord i s g := by
  obtain ⟨x1, x2, x3⟩ := h.xml
  unfold C117.part docOf partOf
  dsimp only
  rw [x1, x2, x3, acts_zip h.actions]

theorem docs_parts {ds : List Doc} : ∀ (gs : List Loaded) (s : SState),
    (∀ g ∈ gs, ∃ d ∈ ds, (parseDoc (PopulateTool.reader R) [] d).2 = .ok (some g)) →
    ∃ docs, Sections R ds gs docs ∧ docs.map C117.part = partsOf E R s gs
  | [], s, _ => ⟨[], .nil, rfl⟩
  | g :: gs, s, h => by
    obtain ⟨docs, h1, h2⟩ := docs_parts gs (mergeOne E.ord validId s (inputOf E R g)).1 (fun g hg => h g (by simp [hg]))
    obtain ⟨d, hd, hp⟩ := h g (by simp)
    obtain ⟨_, _, _, _, -, -, -, -, -, p6⟩ := parse_parts hp
    refine ⟨docOf E.ord (inputOf E R g) s g (C140.sect d) :: docs, .cons ⟨script_input g, d, hd, hp, rfl⟩ h1, ?_⟩
    rw [List.map_cons, h2, docOf_part (C140.read_from p6)]
    rfl

theorem readAll_append {read : String → Option Node} : ∀ {a b : List String} {ns ms : List Node},
    readAll read a = .ok ns → readAll read b = .ok ms → readAll read (a ++ b) = .ok (ns ++ ms)
  | [], b, ns, ms, h1, h2 => by cases h1; exact h2
  | t :: ts, b, ns, ms, h1, h2 => by
    unfold readAll at h1
    split at h1
    · cases h1
    rename_i n hn
    split at h1
    · cases h1
    rename_i ns' hns
    cases h1
    have ih := readAll_append hns h2
    rw [List.cons_append]
    unfold readAll
    rw [hn]
    dsimp only
    rw [ih]
    rfl

theorem readAll_back {read : String → Option Node} : ∀ {l ns : List Node}, (∀ n ∈ l, read (shown n) = some n) →
    readAll read (l.map shown) = .ok ns → ns = l
  | [], ns, _, h => by cases h; rfl
  | n :: l, ns, hb, h => by
    rw [List.map_cons] at h
    unfold readAll at h
    rw [hb n (by simp)] at h
    dsimp only at h
    split at h
    · cases h
    rename_i ns' hns
    cases h
    rw [readAll_back (fun m hm => hb m (by simp [hm])) hns]

theorem nodes_kinds (docs : List C117.Doc) : (∀ n ∈ C117.mClasses docs, C101.isCls n = true) ∧
    (∀ n ∈ (C117.mRules docs).map Prod.snd, C101.isRule n = true) ∧ ∀ n ∈ C117.mActs docs, C101.isAct n = true := by
  refine ⟨?_, ?_, ?_⟩
  · intro n hn
    simp only [C117.mClasses, List.mem_flatMap, List.mem_map, List.mem_filter] at hn
    obtain ⟨d, -, e, ⟨-, h2⟩, rfl⟩ := hn
    rw [C117.map_isCls (C117.inClass_keeps _ _)]
    exact h2
  · intro n hn
    obtain ⟨c, hc, rfl⟩ := List.mem_map.1 hn
    obtain ⟨d, -, e, -, h2, s, refs, -, -, h3⟩ := C117.mRules_from hc
    rw [h3, C117.map_isRule (C117.inRule_keeps _ _ _)]
    exact h2
  · intro n hn
    simp only [C117.mActs, List.mem_flatMap, List.mem_filterMap, List.mem_filter] at hn
    obtain ⟨d, -, e, ⟨-, h2⟩, h3⟩ := hn
    unfold C117.actNode at h3
    have : n.tag = e.tag := by
      split at h3
      · split at h3
        · cases h3
        · cases h3
          cases e; rfl
      · cases h3
    simp only [C101.isAct, decide_eq_true_eq] at h2 ⊢
    rw [this]
    exact h2

theorem sorted_nodes (docs : List C117.Doc) : (C117.mNodes docs).filter C101.isCls ++ (C117.mNodes docs).filter C101.isRule ++
    (C117.mNodes docs).filter C101.isAct = C117.mNodes docs := by
  obtain ⟨h1, h2, h3⟩ := nodes_kinds docs
  obtain ⟨p1, p2, p3⟩ := C140.parts h1 h2 h3
  unfold C117.mNodes
  rw [p1, p2, p3]

theorem section_read {docs : List C117.Doc} {r : Rules} (hw : ∀ doc ∈ docs, C117.Writable doc)
    (hb : ∀ n ∈ C117.mNodes docs, E.read (shown n) = some n)
    (h : readSection E (MergeXml.mergeSection (docs.map C117.part)) = .ok r) : serializeRules r = C117.mNodes docs := by
  obtain ⟨ht, -⟩ := C117.section_text hw
  generalize MergeXml.mergeSection (docs.map C117.part) = S at h ht
  obtain ⟨h1, h2, h3⟩ := C140.readRules_ok h
  refine readAll_back hb ?_
  have := readAll_append (readAll_append h1 h2) h3
  unfold serializeRules
  rw [← this]
  congr 1
  dsimp only
  unfold MergeXml.Section.texts at ht
  have e : (C117.mNodes docs).map shown = ((C117.mNodes docs).map MergeXml.render).map String.ofList := by
    rw [List.map_map]; rfl
  rw [e, ← ht, List.map_append, List.map_append, List.map_map, List.map_map, List.map_map]
  rfl

/-! ## The theorem -/

/-- **C143, partial** What `lgr_merge_set` prints is a document which is read as an LGR with the code points and variants of the
documents, their metadata, and their classes, rules and actions, renamed; it is written as that document again. Missing: when a
document is printed, contexts and references of code points (C94, C96), documents which do not survive writing (C104),
descriptions as asked by `Told`, and rules whose names or texts are ambiguous (C117). -/
theorem merge_prints_partial (hx : C99.Sound R.x) (hdate : DateOk R.x true (some E.today)) {ds : List Doc} {d' : Doc}
    (hd : ∀ d ∈ ds, DocOk (PopulateTool.reader R) d) (ht : ∀ gs, Read R ds gs → Told gs)
    (h : MergeTool.main E R ds = .printed d') :
    ds.length ≠ 1 ∧ ∃ gs gs' docs, Read R ds gs ∧ gs'.Perm gs ∧
      gs'.Pairwise (fun a b => (replaceUnd (script a).toList).map Char.toNat ≤ (replaceUnd (script b).toList).map Char.toNat) ∧
      Sections R ds gs' docs ∧ docs.map C117.part = partsOf E R {} gs' ∧
      ((∀ doc ∈ docs, C117.Writable doc) → (∀ n ∈ C117.mNodes docs, E.read (shown n) = some n) →
        C140.sect d' = C117.mNodes docs) ∧
      ∀ cs, ∃ cs' g', parseDoc (MergeTool.again R) cs d' = (cs', .ok (some g')) ∧ MergedMeta E.today gs' g'.md ∧
        MergedEntries gs g'.lgr ∧ C140.ReadFrom (C140.sect d') g'.rules ∧ serializeDoc g' = .ok d' := by
  obtain ⟨hl, gs, g, m, h1, h2, h3, h4⟩ := main_printed h
  have hread := readDocs_iff.1 h1
  have hsrc := sources hx hd hread
  have hgood : ∀ g ∈ gs, C45.Good (inputOf E R g) ∧ ∀ p ∈ (inputOf E R g).lgr.refs.refs, RefOk p := by
    intro g hg
    obtain ⟨d, -, hs⟩ := hsrc g hg
    exact input_good hs
  have hdocs : ∀ g ∈ sorted gs, ∃ d ∈ ds, (parseDoc (PopulateTool.reader R) [] d).2 = .ok (some g) := by
    intro g hg
    obtain ⟨i, hi, rfl⟩ := List.mem_iff_getElem.1 ((sorted_perm gs).mem_iff.1 hg)
    have hlen := hread.length_eq
    exact ⟨ds[i]'(by omega), List.getElem_mem _, by
      have := List.forall₂_iff_get.1 hread
      exact this.2 i (by omega) hi⟩
  obtain ⟨docs, hsec, hparts⟩ := docs_parts (E := E) (ds := ds) (sorted gs) {} hdocs
  unfold mergeLoaded at h2
  split at h2
  · cases h2
  rename_i s hs
  rw [← hparts] at h2
  split at h2
  · cases h2
  rename_i r hr
  cases h2
  have hg' : ∀ i ∈ gs.map (inputOf E R), C45.Good i ∧ ∀ p ∈ i.lgr.refs.refs, RefOk p := by
    intro i hi
    obtain ⟨g, hgm, rfl⟩ := List.mem_map.1 hi
    exact hgood g hgm
  have hrefs := refs_all hg' hs
  have hnodup : (s.m.lgr.refs.refs.map Prod.fst).Nodup := (mergeAll_spec (fun i hi => (hg' i hi).1) hs).1.refsNodup
  have hM : MGood R.x true (mergeMeta E.today (sorted gs) s.m.lgr.refs) :=
    mgood_merged (fun g hg => by
      obtain ⟨d, -, hs⟩ := hsrc g ((sorted_perm gs).mem_iff.1 hg)
      exact hs.md) ((ht gs hread).perm (sorted_perm gs)) hdate hnodup hrefs
  obtain ⟨m1, m2, m3, t, m4⟩ := reread_parts hx (g := ⟨mergeMeta E.today (sorted gs) s.m.lgr.refs, s.m.lgr, r, 0⟩) hM h3
  have hman : managerOf (mergeMeta E.today (sorted gs) s.m.lgr.refs) = s.m.lgr.refs := C140.manager_refs rfl rfl
  dsimp only at m1 m2 m4
  rw [hman] at m2
  have hset : mergeSet E.ord validId (gs.map (inputOf E R)) = .ok m.lgr := by
    unfold mergeSet
    rw [hs]
    exact m2
  have hent := merged_entries (fun g hg => (hgood g hg).1) hset
  have hrf := C140.read_from m4
  obtain ⟨_, -, -, -, s4⟩ := serialize_parts h4
  have hsect : C140.sect d' = serializeRules m.rules := by unfold C140.sect; rw [s4]; rfl
  refine ⟨hl, gs, sorted gs, docs, hread, sorted_perm gs, ?_, hsec, hparts, ?_, ?_⟩
  · exact sortAsc_sorted scriptKey gs
  · intro hw hb
    have hS := section_read hw hb hr
    rw [hsect]
    show m.rules.clsXml ++ m.rules.rulesXml ++ m.rules.actionsXml = _
    rw [hrf.xml.1, hrf.xml.2.1, hrf.xml.2.2, hS, sorted_nodes]
  · intro cs
    have hMm : MGood R.x true m.md := by
      rw [m1]
      exact ⟨⟨hM.writable.version, hM.writable.dates, hM.writable.unicode, hM.writable.languages, hM.writable.distinct,
        hM.writable.scopes, hM.writable.description, hM.writable.ids, hM.writable.refs⟩, hM.ids⟩
    obtain ⟨d2, cs2, g', f1, f2, f3, -, -, -, f7, -⟩ := fit_reread (MergeTool.again R) hx (again_safe R) hMm
      (good_fit m3) (ns := serializeRules r) (r := m.rules) (t := t)
      (by intro hc; cases hc) m4 (ids := m.ids) cs
    have : serializeDoc m = .ok d2 := f1
    rw [h4] at this
    cases this
    have al := f3 (fun t => m3.types t)
    obtain ⟨_, _, _, _, -, -, -, -, -, p6⟩ := parse_parts (congrArg Prod.snd f2)
    refine ⟨cs2, g', f2, ?_, entries_same hent al.entries al.only, C140.read_from p6, f7⟩
    have e : g'.md = { mergeMeta E.today (sorted gs) s.m.lgr.refs with nextId := 0 } := by
      rw [al.md]
      show { m.md with nextId := 0 } = _
      rw [m1]
    have hm := merged_meta E.today (sorted gs) s.m.lgr.refs
    rw [e]
    exact ⟨hm.date, hm.languages, hm.scopes, hm.version, hm.start, hm.end_, hm.unicode, hm.description⟩

end Lgr.Props.C143
