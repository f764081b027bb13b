import Verif.MergeXml
import Verif.Props.RulesMeaning5

/-!
# C117: what the regular expressions of `merge_set.py` do to the text of an element
-/

namespace Lgr.Props.C117
open Lgr Compare MergeSet RulesXml MergeXml C103

/-! ## Texts between quotes -/

def NoQ (l : Txt) : Prop := '"' ∉ l

theorem takeWhile_noq {u t : Txt} (h : NoQ u) : (u ++ '"' :: t).takeWhile (· ≠ '"') = u := by
  induction u with
  | nil => simp
  | cons c u ih =>
    have h1 : c ≠ '"' := fun e => h (by simp [e])
    have h2 : NoQ u := fun e => h (by simp [e])
    simp only [List.cons_append, List.takeWhile_cons, ne_eq, h1, not_false_eq_true, decide_true, if_true]
    exact congrArg (c :: ·) (ih h2)

theorem key_prefix {key u t : Txt} (hk : NoQ key) (hu : NoQ u) (h : key ++ ['=', '"'] <+: u ++ '"' :: t) :
    u = key ++ ['='] := by
  obtain ⟨r, hr⟩ := h
  have h1 : NoQ (key ++ ['=']) := by
    simp only [NoQ, List.mem_append, List.mem_singleton] at hk ⊢
    rintro (h | h)
    · exact hk h
    · exact absurd h (by decide)
  have e : (key ++ ['=']) ++ '"' :: r = u ++ '"' :: t := by rw [← hr]; simp
  have := congrArg (List.takeWhile (· ≠ '"')) e
  rw [takeWhile_noq h1, takeWhile_noq hu] at this
  exact this.symm

theorem key_no_prefix {key u : Txt} (hu : NoQ u) : ¬ key ++ ['=', '"'] <+: u := by
  rintro ⟨r, rfl⟩
  exact hu (by simp)

section
variable {key nb : Txt} {f : Txt → Option Txt}

theorem matchAt_no_key {prev s : Txt} (h : ¬ key ++ ['=', '"'] <+: s) : matchAt key nb f prev s = none := by
  unfold matchAt
  split
  · rfl
  · rw [if_neg h]

theorem matchAt_behind {prev s : Txt} (h : nb ≠ [] ∧ nb.reverse <+: prev) : matchAt key nb f prev s = none := by
  unfold matchAt
  rw [if_pos h]

/-- The new value, if any. -/
def new (f : Txt → Option Txt) (v : Txt) : Option Txt := if v = [] then none else f v

theorem matchAt_hit {prev v t : Txt} (h : ¬ (nb ≠ [] ∧ nb.reverse <+: prev)) (hv : NoQ v) :
    matchAt key nb f prev (key ++ ['=', '"'] ++ (v ++ '"' :: t)) =
      (new f v).map (fun v' => (key ++ ['=', '"'] ++ v' ++ ['"'], key.length + 2 + v.length + 1)) := by
  unfold matchAt
  simp only [if_neg h, List.prefix_append, if_true, List.drop_left']
  rw [takeWhile_noq hv]
  unfold new
  by_cases hne : v = []
  · simp [hne]
  · rw [if_neg (by simp [hne]), if_neg hne]
    cases f v <;> simp

theorem subGo_skip {s1 s2 : Txt} : ∀ prev, subGo key nb f prev s1.length (s1 ++ s2) = subGo key nb f (s1.reverse ++ prev) 0 s2 := by
  induction s1 with
  | nil => intro prev; rfl
  | cons c s1 ih =>
    intro prev
    rw [List.length_cons, List.cons_append, subGo, ih]
    simp

theorem subGo_plain {u : Txt} (hu : NoQ u) : ∀ prev, subGo key nb f prev 0 u = u := by
  induction u with
  | nil => intro prev; rfl
  | cons c u ih =>
    intro prev
    rw [subGo, matchAt_no_key (key_no_prefix hu)]
    dsimp only
    rw [ih (fun e => hu (by simp [e]))]

/-- Up to the next quote nothing is replaced, unless the key stands before the quote. -/
theorem subGo_pass (hk : NoQ key) {u t : Txt} (hu : NoQ u) : ∀ prev,
    (∀ a, u = a ++ key ++ ['='] → nb ≠ [] ∧ nb.reverse <+: a.reverse ++ prev) →
    subGo key nb f prev 0 (u ++ '"' :: t) = u ++ '"' :: subGo key nb f ('"' :: (u.reverse ++ prev)) 0 t := by
  induction u with
  | nil =>
    intro prev h
    have hn : matchAt key nb f prev ('"' :: t) = none := by
      apply matchAt_no_key
      intro hp
      have := key_prefix (u := []) hk hu hp
      simp at this
    rw [List.nil_append, subGo, hn]
    simp
  | cons c u ih =>
    intro prev h
    have hu' : NoQ u := fun e => hu (by simp [e])
    have hn : matchAt key nb f prev (c :: (u ++ '"' :: t)) = none := by
      by_cases hp : key ++ ['=', '"'] <+: c :: (u ++ '"' :: t)
      · have e := key_prefix (u := c :: u) hk hu hp
        exact matchAt_behind (by simpa using h [] (by simpa using e))
      · exact matchAt_no_key hp
    rw [List.cons_append, subGo, hn]
    dsimp only
    rw [ih hu' (c :: prev)]
    · simp
    · intro a ha
      have := h (c :: a) (by rw [ha]; simp)
      simpa using this

/-- The key stands before the quote: the value is replaced. -/
theorem subGo_key (hk : NoQ key) (hk0 : key ≠ []) {u v t : Txt} (hu : NoQ u) (hv : NoQ v)
    (hend : ¬ key ++ ['='] <:+ v) : ∀ prev, ¬ (nb ≠ [] ∧ nb.reverse <+: u.reverse ++ prev) →
    ∃ prev', subGo key nb f prev 0 (u ++ key ++ ['=', '"'] ++ (v ++ '"' :: t)) =
      u ++ key ++ ['=', '"'] ++ ((new f v).getD v ++ '"' :: subGo key nb f prev' 0 t) := by
  induction u with
  | nil =>
    intro prev h
    simp only [List.nil_append]
    obtain ⟨c, key', rfl⟩ := List.exists_cons_of_ne_nil hk0
    cases hf : new f v with
    | some v' =>
      rw [List.cons_append, List.cons_append, subGo, ← List.cons_append, ← List.cons_append,
        matchAt_hit (by simpa using h) hv, hf]
      dsimp only [Option.map_some]
      have e1 : (c :: key').length + 2 + v.length + 1 - 1 = (key' ++ ['=', '"'] ++ v ++ ['"']).length := by
        simp; omega
      have e2 : key' ++ ['=', '"'] ++ (v ++ '"' :: t) = (key' ++ ['=', '"'] ++ v ++ ['"']) ++ t := by simp
      rw [e1, e2, subGo_skip]
      exact ⟨(key' ++ ['=', '"'] ++ v ++ ['"']).reverse ++ c :: prev, by simp⟩
    | none =>
      have key1 : subGo (c :: key') nb f prev 0 ((c :: key') ++ ['=', '"'] ++ (v ++ '"' :: t)) =
          c :: subGo (c :: key') nb f (c :: prev) 0 ((key' ++ ['=']) ++ '"' :: (v ++ '"' :: t)) := by
        rw [List.cons_append, List.cons_append, subGo, ← List.cons_append, ← List.cons_append,
          matchAt_hit (by simpa using h) hv, hf]
        simp
      rw [key1, subGo_pass hk (u := key' ++ ['='])]
      · rw [subGo_pass hk hv]
        · exact ⟨'"' :: (v.reverse ++ '"' :: ((key' ++ ['=']).reverse ++ c :: prev)), by simp⟩
        · intro a ha
          exact absurd ⟨a, by rw [ha]; simp⟩ hend
      · simp only [NoQ, List.mem_append, List.mem_singleton, List.mem_cons, not_or] at hk ⊢
        exact ⟨hk.2, by decide⟩
      · intro a ha
        have := congrArg List.length ha
        simp at this
        omega
  | cons d u ih =>
    intro prev h
    have hu' : NoQ u := fun e => hu (by simp [e])
    have hn : matchAt key nb f prev (d :: (u ++ key ++ ['=', '"'] ++ (v ++ '"' :: t))) = none := by
      apply matchAt_no_key
      intro hp
      have h0 : NoQ (d :: u ++ key ++ ['=']) := by
        simp only [NoQ, List.mem_append, List.mem_singleton, not_or] at hk hu ⊢
        exact ⟨⟨hu, hk⟩, by decide⟩
      have e : d :: (u ++ key ++ ['=', '"'] ++ (v ++ '"' :: t)) = (d :: u ++ key ++ ['=']) ++ '"' :: (v ++ '"' :: t) := by
        simp
      rw [e] at hp
      have := congrArg List.length (key_prefix hk h0 hp)
      simp at this
      omega
    obtain ⟨p', hp'⟩ := ih hu' (d :: prev) (by simpa using h)
    refine ⟨p', ?_⟩
    rw [show (d :: u) ++ key ++ ['=', '"'] ++ (v ++ '"' :: t) = d :: (u ++ key ++ ['=', '"'] ++ (v ++ '"' :: t)) by simp,
      subGo, hn]
    dsimp only
    rw [hp']
    simp

/-! ## Texts with attributes -/

/-- A part of a text. -/
inductive Piece where
  | lit (t : Txt)
  | att (k v : Txt)

def Piece.flat : Piece → Txt
  | lit t => t
  | att k v => ' ' :: k ++ ['=', '"'] ++ v ++ ['"']

def flat (ps : List Piece) : Txt := ps.flatMap Piece.flat

/-- No attribute is mistaken for the one that is looked for. -/
def Piece.Good (key nb : Txt) : Piece → Prop
  | lit t => NoQ t
  | att k v => NoQ k ∧ NoQ v ∧ (¬ key ++ ['='] <:+ v) ∧
      (key <:+ k → k = key ∨ (nb ≠ [] ∧ nb ++ key <:+ k))

def Piece.map (key : Txt) (f : Txt → Option Txt) : Piece → Piece
  | lit t => lit t
  | att k v => att k (if k = key then (new f v).getD v else v)

theorem suffix_space {key u k : Txt} (hs : ' ' ∉ key) (h : key <:+ u ++ ' ' :: k) : key <:+ k := by
  obtain ⟨a, ha⟩ := h
  rw [List.append_eq_append_iff] at ha
  rcases ha with ⟨c, h1, h2⟩ | ⟨c, h1, h2⟩
  · cases c with
    | nil => simp at h2; rw [h2] at hs; simp at hs
    | cons d c => rw [h2] at hs; simp at hs
  · cases c with
    | nil => simp at h2; rw [← h2] at hs; simp at hs
    | cons d c =>
      simp only [List.cons_append, List.cons.injEq] at h2
      exact ⟨c, h2.2.symm⟩

theorem sub_flat (hk : NoQ key) (hk0 : key ≠ []) (hs : ' ' ∉ key) (hnb : ' ' ∉ nb) (ps : List Piece)
    (hg : ∀ p ∈ ps, p.Good key nb) : ∀ u prev, NoQ u →
    subGo key nb f prev 0 (u ++ flat ps) = u ++ flat (ps.map (Piece.map key f)) := by
  induction ps with
  | nil => intro u prev hu; simp [flat, subGo_plain hu]
  | cons p ps ih =>
    have ih := ih (fun q hq => hg q (List.mem_cons_of_mem _ hq))
    have hp := hg p List.mem_cons_self
    intro u prev hu
    cases p with
    | lit t =>
      have := ih (u ++ t) prev (by
        simp only [NoQ, List.mem_append, not_or]
        exact ⟨hu, hp⟩)
      simpa [flat, Piece.flat, Piece.map] using this
    | att k v =>
      obtain ⟨h1, h2, h3, h4⟩ := hp
      have e0 : u ++ flat (.att k v :: ps) = (u ++ ' ' :: k ++ ['=']) ++ '"' :: (v ++ '"' :: flat ps) := by
        simp [flat, Piece.flat]
      have hseg : NoQ (u ++ ' ' :: k ++ ['=']) := by
        simp only [NoQ, List.mem_append, List.mem_cons, not_or] at hu h1 ⊢
        exact ⟨⟨hu, by decide, h1⟩, by decide, by simp⟩
      have ih0 : ∀ prev, subGo key nb f prev 0 (flat ps) = flat (ps.map (Piece.map key f)) := by
        intro prev
        have := ih [] prev (by simp [NoQ])
        simpa using this
      have hv : ∀ prev, subGo key nb f prev 0 (v ++ '"' :: flat ps) = v ++ '"' :: flat (ps.map (Piece.map key f)) := by
        intro prev
        rw [subGo_pass hk h2, ih0]
        intro a ha
        exact absurd ⟨a, by rw [ha]; simp⟩ h3
      by_cases hkk : k = key
      · subst hkk
        have e1 : u ++ flat (.att k v :: ps) = (u ++ [' ']) ++ k ++ ['=', '"'] ++ (v ++ '"' :: flat ps) := by
          simp [flat, Piece.flat]
        have hu2 : NoQ (u ++ [' ']) := by
          simp only [NoQ, List.mem_append, List.mem_singleton, not_or]
          exact ⟨hu, by decide⟩
        obtain ⟨p', hp'⟩ := subGo_key (nb := nb) (f := f) (t := flat ps) hk hk0 hu2 h2 h3 prev (by
          rintro ⟨hn0, hpre⟩
          rw [List.reverse_append] at hpre
          obtain ⟨x, nb', rfl⟩ : ∃ x nb', nb = nb' ++ [x] := by
            rcases List.eq_nil_or_concat nb with h | ⟨l, x, h⟩
            · exact absurd h hn0
            · exact ⟨x, l, by simpa using h⟩
          simp only [List.reverse_append, List.reverse_cons, List.reverse_nil, List.nil_append, List.cons_append,
            List.cons_prefix_cons] at hpre
          rw [hpre.1] at hnb
          simp at hnb)
        rw [e1, hp', ih0]
        simp [flat, Piece.flat, Piece.map]
      · have e2 : (Piece.att k v).map key f = .att k v := by simp only [Piece.map, if_neg hkk]
        rw [e0, List.map_cons, e2, subGo_pass hk hseg, hv]
        · simp [flat, Piece.flat]
        · intro a ha
          have ha' : u ++ ' ' :: k = a ++ key := List.append_cancel_right ha
          have hsuf : key <:+ k := suffix_space hs ⟨a, ha'.symm⟩
          rcases h4 hsuf with h | ⟨hn0, b, hb⟩
          · exact absurd h hkk
          · refine ⟨hn0, ?_⟩
            have : a = u ++ ' ' :: b ++ nb := by
              apply List.append_cancel_right (bs := key)
              rw [← ha', ← hb]
              simp
            rw [this]
            simp only [List.reverse_append, List.append_assoc]
            exact List.prefix_append _ _

end

/-! ## Elements -/

mutual

/-- Change the values of the attributes of an element and of those inside. -/
def mapNode (g : String → String → String) : Node → Node
  | .mk tag attrs text children => .mk tag (attrs.map (fun p => (p.1, g p.1 p.2))) text (mapNodes g children)

def mapNodes (g : String → String → String) : List Node → List Node
  | [] => []
  | n :: ns => mapNode g n :: mapNodes g ns

end

theorem mapNodes_eq (g : String → String → String) (ns : List Node) : mapNodes g ns = ns.map (mapNode g) := by
  induction ns with
  | nil => rfl
  | cons n ns ih => rw [mapNodes, ih, List.map_cons]

theorem node_ind {P : Node → Prop}
    (h : ∀ tag attrs text children, (∀ c ∈ children, P c) → P (.mk tag attrs text children)) : ∀ n, P n := by
  intro n
  refine Node.rec (motive_1 := P) (motive_2 := fun ns => ∀ c ∈ ns, P c) ?_ ?_ ?_ n
  · intro tag attrs text children ih
    exact h tag attrs text children ih
  · simp
  · intro n ns h1 h2 c hc
    rcases List.mem_cons.1 hc with rfl | hc
    · exact h1
    · exact h2 c hc

theorem map_map (g h : String → String → String) : ∀ n, mapNode g (mapNode h n) = mapNode (fun k v => g k (h k v)) n := by
  apply node_ind
  intro tag attrs text children ih
  simp only [mapNode, mapNodes_eq, List.map_map]
  congr 1
  exact List.map_congr_left ih

/-- All attributes of the element and of those inside. -/
def Attrs (Q : String → String → Prop) (n : Node) : Prop := ∀ d, Within d n → ∀ p ∈ d.attrs, Q p.1 p.2

theorem attrs_iff {Q : String → String → Prop} {tag : String} {attrs : Xml.XAttrs} {text : Option String} {ch : List Node} :
    Attrs Q (.mk tag attrs text ch) ↔ (∀ p ∈ attrs, Q p.1 p.2) ∧ ∀ c ∈ ch, Attrs Q c := by
  constructor
  · intro h
    exact ⟨h _ .self, fun c hc d hd => h d (.child _ c hc hd)⟩
  · rintro ⟨h1, h2⟩ d hd
    cases hd with
    | self => exact h1
    | child _ c hc hd => exact h2 c hc d hd

theorem attrs_map {Q R : String → String → Prop} {g : String → String → String} (hg : ∀ k v, Q k v → R k (g k v)) :
    ∀ n, Attrs Q n → Attrs R (mapNode g n) := by
  apply node_ind
  intro tag attrs text children ih h
  rw [attrs_iff] at h
  rw [mapNode, mapNodes_eq, attrs_iff]
  refine ⟨?_, ?_⟩
  · intro p hp
    rw [List.mem_map] at hp
    obtain ⟨q, hq, rfl⟩ := hp
    exact hg _ _ (h.1 q hq)
  · intro c hc
    rw [List.mem_map] at hc
    obtain ⟨d, hd, rfl⟩ := hc
    exact ih d hd (h.2 d hd)

theorem map_congr {Q : String → String → Prop} {g h : String → String → String} (hg : ∀ k v, Q k v → g k v = h k v) :
    ∀ n, Attrs Q n → mapNode g n = mapNode h n := by
  apply node_ind
  intro tag attrs text children ih hn
  rw [attrs_iff] at hn
  simp only [mapNode, mapNodes_eq]
  congr 1
  · exact List.map_congr_left (fun p hp => by rw [hg _ _ (hn.1 p hp)])
  · exact List.map_congr_left (fun c hc => ih c hc (hn.2 c hc))

/-- There are no quotes in tags and texts. -/
def Marks (n : Node) : Prop := ∀ d, Within d n → NoQ d.tag.toList ∧ ∀ t, d.text = some t → NoQ t.toList

theorem marks_iff {tag : String} {attrs : Xml.XAttrs} {text : Option String} {ch : List Node} :
    Marks (.mk tag attrs text ch) ↔ (NoQ tag.toList ∧ ∀ t, text = some t → NoQ t.toList) ∧ ∀ c ∈ ch, Marks c := by
  constructor
  · intro h
    exact ⟨h _ .self, fun c hc d hd => h d (.child _ c hc hd)⟩
  · rintro ⟨h1, h2⟩ d hd
    cases hd with
    | self => exact h1
    | child _ c hc hd => exact h2 c hc d hd

theorem marks_map {g : String → String → String} : ∀ n, Marks n → Marks (mapNode g n) := by
  apply node_ind
  intro tag attrs text children ih h
  rw [marks_iff] at h
  rw [mapNode, mapNodes_eq, marks_iff]
  refine ⟨h.1, ?_⟩
  intro c hc
  rw [List.mem_map] at hc
  obtain ⟨d, hd, rfl⟩ := hc
  exact ih d hd (h.2 d hd)

/-! ## The pieces of an element -/

def attrPieces (attrs : Xml.XAttrs) : List Piece := attrs.map (fun p => .att p.1.toList (p.2.toList.flatMap escV))

mutual

def pieces : Node → List Piece
  | .mk tag attrs text children =>
    .lit ('<' :: tag.toList) :: attrPieces attrs ++
    (if children.isEmpty ∧ text.isNone then [.lit ['/', '>']]
     else .lit ('>' :: (text.getD "").toList.flatMap escT) :: (piecess children ++ [.lit (['<', '/'] ++ tag.toList ++ ['>'])]))

def piecess : List Node → List Piece
  | [] => []
  | n :: ns => pieces n ++ piecess ns

end

theorem piecess_eq (ns : List Node) : piecess ns = ns.flatMap pieces := by
  induction ns with
  | nil => rfl
  | cons n ns ih => rw [piecess, ih, List.flatMap_cons]

theorem renders_eq (ns : List Node) : renders ns = ns.flatMap render := by
  induction ns with
  | nil => rfl
  | cons n ns ih => rw [renders, ih, List.flatMap_cons]

theorem flat_append (a b : List Piece) : flat (a ++ b) = flat a ++ flat b := by simp [flat]

theorem flat_attrs (attrs : Xml.XAttrs) : flat (attrPieces attrs) = attrs.flatMap renderAttr := by
  simp only [flat, attrPieces, List.flatMap_map]
  rfl

theorem render_pieces : ∀ n, flat (pieces n) = render n := by
  apply node_ind
  intro tag attrs text children ih
  have hch : flat (piecess children) = renders children := by
    rw [piecess_eq, renders_eq, flat, List.flatMap_assoc]
    exact List.flatMap_congr (fun c hc => ih c hc)
  rw [pieces, render]
  have e : ∀ (a : Txt) l, flat (.lit a :: l) = a ++ flat l := fun a l => by simp [flat, Piece.flat]
  rw [List.cons_append, e, flat_append, flat_attrs]
  split
  · simp [flat, Piece.flat]
  · rw [e, flat_append, hch]
    simp [flat, Piece.flat]

theorem escV_noq (v : Txt) : NoQ (v.flatMap escV) := by
  intro h
  rw [List.mem_flatMap] at h
  obtain ⟨c, -, hc⟩ := h
  unfold escV at hc
  split at hc
  all_goals first | (revert hc; decide) | skip
  rename_i h1 h2 h3 h4 h5 h6 h7
  rw [List.mem_singleton] at hc
  exact h4 hc.symm

theorem escT_noq {v : Txt} (hv : NoQ v) : NoQ (v.flatMap escT) := by
  intro h
  rw [List.mem_flatMap] at h
  obtain ⟨c, hc0, hc⟩ := h
  unfold escT at hc
  split at hc
  all_goals first | (revert hc; decide) | skip
  rw [List.mem_singleton] at hc
  exact hv (hc ▸ hc0)

/-- The characters that are written as they are. -/
def Clean (v : String) : Prop := ∀ c ∈ v.toList, escV c = [c]

theorem clean_esc {v : String} (h : Clean v) : v.toList.flatMap escV = v.toList := by
  have : ∀ l : Txt, (∀ c ∈ l, escV c = [c]) → l.flatMap escV = l := by
    intro l
    induction l with
    | nil => intro _; rfl
    | cons c l ih =>
      intro h
      rw [List.flatMap_cons, h c (by simp), ih (fun d hd => h d (by simp [hd]))]
      rfl
  exact this _ h

/-- The value does not end like an attribute. -/
def Ends (v : String) : Prop := v.toList.getLast? ≠ some '='

theorem ends_esc {v : String} (h : Ends v) {key : Txt} : ¬ key ++ ['='] <:+ v.toList.flatMap escV := by
  unfold Ends at h
  generalize v.toList = l at h
  rintro ⟨a, ha⟩
  rcases List.eq_nil_or_concat l with rfl | ⟨l', c, rfl⟩
  · simp at ha
  · simp only [List.concat_eq_append, List.getLast?_append, List.getLast?_singleton, Option.some_or, ne_eq,
      Option.some.injEq] at h
    have h1 := congrArg List.getLast? ha
    simp only [List.concat_eq_append, List.flatMap_append, List.flatMap_cons, List.flatMap_nil, List.append_nil,
      List.getLast?_append, List.getLast?_singleton, Option.some_or] at h1
    have h2 : ∀ d, escV d ≠ [] ∧ ((escV d).getLast? = some '=' → d = '=') := by
      intro d
      unfold escV
      split
      all_goals first | decide | skip
      simp
    obtain ⟨h3, h4⟩ := h2 c
    rw [List.getLast?_eq_some_getLast h3] at h1 h4
    simp only [Option.some_or, Option.some.injEq] at h1 h4
    exact h (h4 h1.symm)

/-! ## Replacing in the text of an element -/

/-- The attribute is not mistaken for the one that is looked for. -/
def Apart (key nb : String) (k v : String) : Prop :=
  NoQ k.toList ∧ Ends v ∧ (key.toList <:+ k.toList → k = key ∨ (nb.toList ≠ [] ∧ nb.toList ++ key.toList <:+ k.toList))

def onKey (key : String) (h : String → String) (k v : String) : String := if k = key then h v else v

theorem sub_render {key nb : String} {f : Txt → Option Txt} {h : String → String} (hk : NoQ key.toList)
    (hk0 : key.toList ≠ []) (hs : ' ' ∉ key.toList) (hnb : ' ' ∉ nb.toList) (n : Node) (hm : Marks n)
    (ha : Attrs (Apart key nb) n)
    (hf : Attrs (fun k v => k = key → (new f (v.toList.flatMap escV)).getD (v.toList.flatMap escV) = (h v).toList.flatMap escV) n) :
    subGo key.toList nb.toList f [] 0 (render n) = render (mapNode (onKey key h) n) := by
  have hgood : ∀ n, Marks n → Attrs (Apart key nb) n → ∀ p ∈ pieces n, p.Good key.toList nb.toList := by
    apply node_ind
    intro tag attrs text children ih hm ha
    rw [marks_iff] at hm
    rw [attrs_iff] at ha
    have hatt : ∀ p ∈ attrPieces attrs, p.Good key.toList nb.toList := by
      intro p hp
      simp only [attrPieces, List.mem_map] at hp
      obtain ⟨q, hq, rfl⟩ := hp
      obtain ⟨h1, h2, h3⟩ := ha.1 q hq
      refine ⟨h1, escV_noq _, ends_esc h2, fun hs => (h3 hs).imp_left (fun e => by rw [e])⟩
    have hlit : ∀ t, NoQ t → (Piece.lit t).Good key.toList nb.toList := fun t h => h
    have htag : NoQ tag.toList := hm.1.1
    intro p hp
    rw [pieces, List.cons_append, List.mem_cons, List.mem_append] at hp
    rcases hp with rfl | hp | hp
    · apply hlit
      simp only [NoQ, List.mem_cons, not_or]
      exact ⟨by decide, htag⟩
    · exact hatt p hp
    · split at hp
      · rw [List.mem_singleton] at hp
        subst hp
        exact hlit _ (by simp [NoQ])
      · rw [List.mem_cons, List.mem_append, List.mem_singleton] at hp
        rcases hp with rfl | hp | rfl
        · apply hlit
          simp only [NoQ, List.mem_cons, not_or]
          refine ⟨by decide, escT_noq ?_⟩
          cases text with
          | none => simp [NoQ]
          | some t => exact hm.1.2 t rfl
        · rw [piecess_eq, List.mem_flatMap] at hp
          obtain ⟨c, hc, hp⟩ := hp
          exact ih c hc (hm.2 c hc) (ha.2 c hc) p hp
        · apply hlit
          simp only [NoQ, List.mem_append, List.mem_cons, List.not_mem_nil, not_or, or_false] at htag ⊢
          exact ⟨⟨⟨by decide, by decide⟩, htag⟩, by decide⟩
  have hmap : ∀ n, Attrs (fun k v => k = key → (new f (v.toList.flatMap escV)).getD (v.toList.flatMap escV) = (h v).toList.flatMap escV) n →
      (pieces n).map (Piece.map key.toList f) = pieces (mapNode (onKey key h) n) := by
    apply node_ind
    intro tag attrs text children ih hf
    rw [attrs_iff] at hf
    have hatt : (attrPieces attrs).map (Piece.map key.toList f) =
        attrPieces (attrs.map (fun p => (p.1, onKey key h p.1 p.2))) := by
      simp only [attrPieces, List.map_map]
      refine List.map_congr_left (fun p hp => ?_)
      simp only [Function.comp, Piece.map, onKey]
      by_cases hk : p.1 = key
      · rw [if_pos (by rw [hk]), if_pos hk, hf.1 p hp hk]
      · rw [if_neg (fun e => hk (String.toList_inj.1 e)), if_neg hk]
    have hch : (piecess children).map (Piece.map key.toList f) = piecess (mapNodes (onKey key h) children) := by
      rw [piecess_eq, piecess_eq, mapNodes_eq, List.map_flatMap, List.flatMap_map]
      exact List.flatMap_congr (fun c hc => ih c hc (hf.2 c hc))
    rw [pieces, mapNode, pieces, List.map_append, List.map_cons, hatt]
    have he : (mapNodes (onKey key h) children).isEmpty = children.isEmpty := by
      cases children <;> rfl
    rw [he]
    split
    · simp [Piece.map]
    · simp only [List.map_cons, List.map_append, hch, List.map_nil, Piece.map]
  have := sub_flat (f := f) hk hk0 hs hnb (pieces n) (hgood n hm ha) [] [] (by simp [NoQ])
  rw [List.nil_append, List.nil_append, render_pieces, hmap n hf, render_pieces] at this
  exact this

end Lgr.Props.C117
