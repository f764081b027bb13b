import Verif.Props.MergeNames

/-!
# C117: elements with their names changed mean the same, if the names do
-/

namespace Lgr.Props.C117
open Lgr Compare MergeSet RulesXml MergeXml C101 C102 C103 C42 C63

/-- The attributes that are changed. -/
def changed : List String := ["name", "by-ref", "from-tag", "ref"]

def Keeps (g : String → String → String) : Prop := ∀ k, k ∉ changed → ∀ v, g k v = v

theorem inRule_keeps (s n : String) (refs : List String) : Keeps (inRule s n refs) := by
  intro k hk v
  simp only [changed, List.mem_cons, List.not_mem_nil, or_false, not_or] at hk
  simp [inRule, hk]

theorem inClass_keeps (s : String) (refs : List String) : Keeps (inClass s refs) := by
  intro k hk v
  simp only [changed, List.mem_cons, List.not_mem_nil, or_false, not_or] at hk
  simp [inClass, hk]

theorem dget_map (g : String → String → String) (attrs : Xml.XAttrs) (k : String) :
    dget (attrs.map (fun p => (p.1, g p.1 p.2))) k = (dget attrs k).map (g k) := by
  induction attrs with
  | nil => rfl
  | cons p attrs ih =>
    obtain ⟨a, b⟩ := p
    rw [List.map_cons, dget, dget]
    by_cases h : a = k
    · subst h; simp
    · rw [if_neg h, if_neg h, ih]

theorem dget_kept {g : String → String → String} (hg : Keeps g) (attrs : Xml.XAttrs) {k : String} (hk : k ∉ changed) :
    dget (attrs.map (fun p => (p.1, g p.1 p.2))) k = dget attrs k := by
  rw [dget_map]
  cases dget attrs k with
  | none => rfl
  | some v => rw [Option.map_some, hg k hk]

section
variable {g : String → String → String} (hg : Keeps g)
include hg

theorem map_tag (n : Node) : (mapNode g n).tag = n.tag := by cases n; rfl
theorem map_text (n : Node) : (mapNode g n).text = n.text := by cases n; rfl
theorem map_children (n : Node) : (mapNode g n).children = n.children.map (mapNode g) := by
  cases n; exact mapNodes_eq _ _
theorem map_attr (n : Node) (k : String) : dget (mapNode g n).attrs k = (dget n.attrs k).map (g k) := by
  cases n; exact dget_map _ _ _
theorem map_kept (n : Node) {k : String} (hk : k ∉ changed) : dget (mapNode g n).attrs k = dget n.attrs k := by
  cases n; exact dget_kept hg _ hk

theorem child_map {n : Node} {S : Nat → Prop} : Child (mapNode g n) S ↔ Child n S := by
  have e1 := map_kept hg n (k := "cp") (by decide)
  have e2 := map_kept hg n (k := "first-cp") (by decide)
  have e3 := map_kept hg n (k := "last-cp") (by decide)
  have e0 := map_tag hg n
  constructor
  · intro h
    cases h with
    | char cp ws cps h1 h2 h3 h4 => exact .char n cp ws cps (e0 ▸ h1) (e1 ▸ h2) h3 h4
    | range a b f l h1 h2 h3 h4 h5 => exact .range n a b f l (e0 ▸ h1) (e2 ▸ h2) (e3 ▸ h3) h4 h5
  · intro h
    cases h with
    | char cp ws cps h1 h2 h3 h4 => exact .char _ cp ws cps (e0.trans h1) (e1.trans h2) h3 h4
    | range a b f l h1 h2 h3 h4 h5 => exact .range _ a b f l (e0.trans h1) (e2.trans h2) (e3.trans h3) h4 h5

theorem elem_map (n : Node) (x : Nat) : ElemLists (mapNode g n) x ↔ ElemLists n x := by
  unfold ElemLists
  rw [map_tag hg, map_text hg]
  simp only [child_map hg]

/-- The names in classes mean the same. -/
def SameCls (g : String → String → String) (ρ' ρ : Sets) (n : Node) : Prop :=
  ∀ d, Within d n → d.tag = "class" →
    (∀ c, dget d.attrs "by-ref" = some c → ∀ x, ρ'.name c x ↔ ρ.name (g "by-ref" c) x) ∧
    (∀ t, dget d.attrs "from-tag" = some t → ∀ x, ρ'.tag t x ↔ ρ.tag (g "from-tag" t) x)

omit hg in
theorem SameCls.child {ρ' ρ : Sets} {n c : Node} (h : SameCls g ρ' ρ n) (hc : c ∈ n.children) : SameCls g ρ' ρ c :=
  fun d hd => h d (.child n c hc hd)

omit hg in
theorem nsets_eq (db : String → Except Err CpSet) (ρ : Sets) (ns : List Node) : NSets db ρ ns = ns.map (NSet db ρ) := by
  induction ns with
  | nil => rfl
  | cons n ns ih => rw [NSets, ih, List.map_cons]

theorem set_map {db : String → Except Err CpSet} {ρ' ρ : Sets} : ∀ n, SameCls g ρ' ρ n →
    NSet db ρ' n = NSet db ρ (mapNode g n) := by
  apply node_ind
  intro tag attrs text children ih h
  have hch : NSets db ρ (mapNodes g children) = NSets db ρ' children := by
    rw [nsets_eq, nsets_eq, mapNodes_eq, List.map_map]
    exact List.map_congr_left (fun c hc => (ih c hc (h.child hc)).symm)
  funext x
  rw [mapNode, NSet, NSet, hch]
  by_cases ht : tag = "class"
  · rw [if_pos ht, if_pos ht, dget_map, dget_map, dget_kept hg attrs (k := "property") (by decide)]
    obtain ⟨h1, h2⟩ := h _ .self ht
    cases hb : dget attrs "by-ref" with
    | some c => exact propext (h1 c hb x)
    | none =>
      cases hf : dget attrs "from-tag" with
      | some t => exact propext (h2 t hf x)
      | none =>
        cases dget attrs "property" with
        | some p => rfl
        | none =>
          simp only [Option.map_none, mapNodes_eq]
          apply propext
          have : (∃ n ∈ children.map (mapNode g), ElemLists n x) ↔ ∃ n ∈ children, ElemLists n x := by
            constructor
            · rintro ⟨n, hn, hx⟩
              rw [List.mem_map] at hn
              obtain ⟨m, hm, rfl⟩ := hn
              exact ⟨m, hm, (elem_map hg m x).1 hx⟩
            · rintro ⟨n, hn, hx⟩
              exact ⟨_, List.mem_map_of_mem hn, (elem_map hg n x).2 hx⟩
          rw [this, List.map_eq_nil_iff]
  · rw [if_neg ht, if_neg ht]

/-- The names in a rule mean the same. -/
structure SameRule (g : String → String → String) (w' w : NWorld) (n : Node) : Prop where
  cls : SameCls g w'.sets w.sets n
  rule : ∀ d, Within d n → d.tag = "rule" → ∀ r, dget d.attrs "by-ref" = some r → ∀ i j, w'.rule r i j ↔ w.rule (g "by-ref" r) i j

omit hg in
theorem SameRule.child {w' w : NWorld} {n c : Node} (h : SameRule g w' w n) (hc : c ∈ n.children) : SameRule g w' w c :=
  ⟨h.cls.child hc, fun d hd => h.rule d (.child n c hc hd)⟩

omit hg in
theorem nseq_congr {db : String → Except Err CpSet} {w' w : NWorld} {ns : List Node}
    (h : ∀ c ∈ ns, NHolds db w' c = NHolds db w (mapNode g c)) : NSeq db w' ns = NSeq db w (mapNodes g ns) := by
  induction ns with
  | nil => funext i j; rw [mapNodes, NSeq, NSeq]
  | cons n ns ih =>
    funext i j
    rw [mapNodes, NSeq, NSeq, ih (fun c hc => h c (List.mem_cons_of_mem _ hc)), h n List.mem_cons_self]

omit hg in
theorem nsome_congr {db : String → Except Err CpSet} {w' w : NWorld} {ns : List Node}
    (h : ∀ c ∈ ns, NHolds db w' c = NHolds db w (mapNode g c)) : NSome db w' ns = NSome db w (mapNodes g ns) := by
  induction ns with
  | nil => funext i j; rw [mapNodes, NSome, NSome]
  | cons n ns ih =>
    funext i j
    rw [mapNodes, NSome, NSome, ih (fun c hc => h c (List.mem_cons_of_mem _ hc)), h n List.mem_cons_self]

theorem holds_map {db : String → Except Err CpSet} {w' w : NWorld} (hl : w'.label = w.label) (ha : w'.anchor = w.anchor) :
    ∀ n, SameRule g w' w n → NHolds db w' n = NHolds db w (mapNode g n) := by
  apply node_ind
  intro tag attrs text children ih h
  have hch : ∀ c ∈ children, NHolds db w' c = NHolds db w (mapNode g c) := fun c hc => ih c hc (h.child hc)
  have hset := set_map hg (db := db) (ρ' := w'.sets) (ρ := w.sets) _ h.cls
  funext i j
  rw [mapNode] at hset ⊢
  rw [NHolds, NHolds, nseq_congr hch, nsome_congr hch, hl, ha, dget_kept hg attrs (k := "count") (by decide), hset]
  have hsp : Spells (attrs.map (fun p => (p.1, g p.1 p.2))) = Spells attrs := by
    funext cps
    unfold Spells
    rw [dget_kept hg attrs (k := "cp") (by decide)]
  rw [hsp]
  by_cases ht : tag = "rule"
  · rw [dget_map]
    cases hb : dget attrs "by-ref" with
    | none => rfl
    | some r =>
      have e : w'.rule r = w.rule (g "by-ref" r) := by
        funext i j
        exact propext (h.rule _ .self ht r hb i j)
      simp only [Option.map_some, e]
  · simp only [if_neg ht]

theorem rholds_map {db : String → Except Err CpSet} {w' w : NWorld} (hl : w'.label = w.label) (ha : w'.anchor = w.anchor)
    {n : Node} (ht : n.tag = "rule") (h : SameRule g w' w n) : RHolds db w' n = RHolds db w (mapNode g n) := by
  funext i j
  unfold RHolds
  rw [map_attr hg, map_children hg, ← mapNodes_eq,
    nseq_congr (fun c hc => holds_map hg hl ha c (h.child hc))]
  cases hb : dget n.attrs "by-ref" with
  | none => rfl
  | some r => exact propext (h.rule n .self ht r hb i j)

theorem within_map {d n : Node} (h : Within d n) : Within (mapNode g d) (mapNode g n) := by
  induction h with
  | self => exact .self
  | child n c hc _ ih =>
    exact .child _ _ (by rw [map_children hg]; exact List.mem_map_of_mem hc) ih

theorem map_isCls (n : Node) : isCls (mapNode g n) = isCls n := by simp only [isCls, map_tag hg]
theorem map_isRule (n : Node) : isRule (mapNode g n) = isRule n := by simp only [isRule, map_tag hg]

theorem inRule_map {d n : Node} (h : InRule d n) : InRule (mapNode g d) (mapNode g n) := by
  induction h with
  | self => exact .self
  | child n c h0 hc _ ih =>
    exact .child _ _ (by rw [map_isCls hg]; exact h0) (by rw [map_children hg]; exact List.mem_map_of_mem hc) ih

omit hg in
theorem within_trans {c d n : Node} (h1 : Within c d) (h2 : Within d n) : Within c n := by
  induction h2 with
  | self => exact h1
  | child n c hc _ ih => exact .child n c hc ih

theorem solid_map {db : String → Except Err CpSet} {w' w : NWorld} {n : Node} (h : SameRule g w' w n)
    (hs : Solid db w (mapNode g n)) : Solid db w' n := by
  intro d hd
  obtain ⟨h1, h2, h3, h4⟩ := hs _ (inRule_map hg hd)
  rw [map_tag hg] at h1 h2 h3
  rw [map_isCls hg] at h4
  rw [map_children hg] at h2 h3
  refine ⟨fun ht cps hc => h1 ht cps ?_, fun ht e => h2 ht (by rw [e]; rfl),
    fun ht hb e => h3 ht (by rw [map_attr hg, hb]; rfl) (by rw [e]; rfl), fun hc => ?_⟩
  · unfold Spells at hc ⊢
    rw [map_kept hg d (k := "cp") (by decide)]
    exact hc
  · rw [set_map hg d (fun x hx => h.cls x (within_trans hx (inRule_within hd)))]
    exact h4 hc

end

end Lgr.Props.C117
