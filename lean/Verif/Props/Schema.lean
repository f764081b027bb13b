import Verif.Schema
import Verif.Props.Text

/-!
# C147: matching patterns of the schema
-/

namespace Lgr.Props.C147
open Lgr Xml Text RulesXml Schema

variable {x : Lex} {D : String → Pat}

/-! ## What a match says -/

/-- The attributes of a pattern. -/
def attrsOf : Pat → List (String × Pat)
  | .attr n p => [(n, p)]
  | .group p q => attrsOf p ++ attrsOf q
  | .inter p q => attrsOf p ++ attrsOf q
  | .choice p q => attrsOf p ++ attrsOf q
  | .oneOrMore p => attrsOf p
  | _ => []

/-- The elements of a pattern. -/
def elemsOf : Pat → List (String × Pat)
  | .elem n p => [(n, p)]
  | .group p q => elemsOf p ++ elemsOf q
  | .inter p q => elemsOf p ++ elemsOf q
  | .choice p q => elemsOf p ++ elemsOf q
  | .oneOrMore p => elemsOf p
  | _ => []

/-- No reference to a definition outside of elements and attributes. -/
def direct : Pat → Bool
  | .group p q => direct p && direct q
  | .inter p q => direct p && direct q
  | .choice p q => direct p && direct q
  | .oneOrMore p => direct p
  | .ref _ => false
  | _ => true

/-- Attributes which are always there. -/
def required : Pat → List String
  | .attr n _ => [n]
  | .group p q => required p ++ required q
  | .inter p q => required p ++ required q
  | .choice p q => (required p).filter (fun n => decide (n ∈ required q))
  | .oneOrMore p => required p
  | _ => []

theorem attrs_inv {p : Pat} {a : XAttrs} {c : List Item} (h : Matches x D p a c) (hd : direct p = true) :
    ∀ k v, (k, v) ∈ a → ∃ q, (k, q) ∈ attrsOf p ∧ Matches x D q [] [.txt v] := by
  induction h with
  | empty => simp
  | text => simp
  | data => simp
  | value => simp
  | attr h _ =>
    intro k v hk
    simp only [List.mem_singleton, Prod.mk.injEq] at hk
    obtain ⟨rfl, rfl⟩ := hk
    exact ⟨_, by simp [attrsOf], h⟩
  | elem => simp
  | group _ _ hp ih1 ih2 =>
    simp only [direct, Bool.and_eq_true] at hd
    intro k v hk
    rcases List.mem_append.1 (hp.mem_iff.1 hk) with hk | hk
    · obtain ⟨q, h1, h2⟩ := ih1 hd.1 k v hk
      exact ⟨q, by simp [attrsOf, h1], h2⟩
    · obtain ⟨q, h1, h2⟩ := ih2 hd.2 k v hk
      exact ⟨q, by simp [attrsOf, h1], h2⟩
  | inter _ _ hp _ ih1 ih2 =>
    simp only [direct, Bool.and_eq_true] at hd
    intro k v hk
    rcases List.mem_append.1 (hp.mem_iff.1 hk) with hk | hk
    · obtain ⟨q, h1, h2⟩ := ih1 hd.1 k v hk
      exact ⟨q, by simp [attrsOf, h1], h2⟩
    · obtain ⟨q, h1, h2⟩ := ih2 hd.2 k v hk
      exact ⟨q, by simp [attrsOf, h1], h2⟩
  | left _ ih =>
    simp only [direct, Bool.and_eq_true] at hd
    intro k v hk
    obtain ⟨q, h1, h2⟩ := ih hd.1 k v hk
    exact ⟨q, by simp [attrsOf, h1], h2⟩
  | right _ ih =>
    simp only [direct, Bool.and_eq_true] at hd
    intro k v hk
    obtain ⟨q, h1, h2⟩ := ih hd.2 k v hk
    exact ⟨q, by simp [attrsOf, h1], h2⟩
  | one _ ih => exact ih hd
  | more _ _ hp ih1 ih2 =>
    intro k v hk
    rcases List.mem_append.1 (hp.mem_iff.1 hk) with hk | hk
    · exact ih1 hd k v hk
    · exact ih2 hd k v hk
  | ref => simp [direct] at hd

theorem mem_shuffle {α : Type} {a b c : List α} (h : Shuffle a b c) : ∀ i, i ∈ c ↔ i ∈ a ∨ i ∈ b := by
  induction h with
  | nil => simp
  | left x _ ih => intro i; simp [ih, or_assoc]
  | right x _ ih => intro i; simp [ih, or_left_comm]

theorem nodes_inv {p : Pat} {a : XAttrs} {c : List Item} (h : Matches x D p a c) (hd : direct p = true) :
    ∀ n, .node n ∈ c → ∃ q, (n.tag, q) ∈ elemsOf p ∧ ∃ d ∈ contents n, Matches x D q n.attrs d := by
  induction h with
  | empty => simp
  | text hc =>
    intro n hn
    obtain ⟨s, hs⟩ := hc _ hn
    cases hs
  | data => simp
  | value => simp
  | attr => simp
  | elem hc h _ =>
    intro n hn
    simp only [List.mem_singleton, Item.node.injEq] at hn
    subst hn
    exact ⟨_, by simp [elemsOf], _, hc, h⟩
  | group _ _ _ ih1 ih2 =>
    simp only [direct, Bool.and_eq_true] at hd
    intro n hn
    rcases List.mem_append.1 hn with hn | hn
    · obtain ⟨q, h1, h2⟩ := ih1 hd.1 n hn
      exact ⟨q, by simp [elemsOf, h1], h2⟩
    · obtain ⟨q, h1, h2⟩ := ih2 hd.2 n hn
      exact ⟨q, by simp [elemsOf, h1], h2⟩
  | inter _ _ _ hs ih1 ih2 =>
    simp only [direct, Bool.and_eq_true] at hd
    intro n hn
    rcases (mem_shuffle hs _).1 hn with hn | hn
    · obtain ⟨q, h1, h2⟩ := ih1 hd.1 n hn
      exact ⟨q, by simp [elemsOf, h1], h2⟩
    · obtain ⟨q, h1, h2⟩ := ih2 hd.2 n hn
      exact ⟨q, by simp [elemsOf, h1], h2⟩
  | left _ ih =>
    simp only [direct, Bool.and_eq_true] at hd
    intro n hn
    obtain ⟨q, h1, h2⟩ := ih hd.1 n hn
    exact ⟨q, by simp [elemsOf, h1], h2⟩
  | right _ ih =>
    simp only [direct, Bool.and_eq_true] at hd
    intro n hn
    obtain ⟨q, h1, h2⟩ := ih hd.2 n hn
    exact ⟨q, by simp [elemsOf, h1], h2⟩
  | one _ ih => exact ih hd
  | more _ _ _ ih1 ih2 =>
    intro n hn
    rcases List.mem_append.1 hn with hn | hn
    · exact ih1 hd n hn
    · exact ih2 hd n hn
  | ref => simp [direct] at hd

theorem required_inv {p : Pat} {a : XAttrs} {c : List Item} (h : Matches x D p a c) :
    ∀ n ∈ required p, (dget a n).isSome = true := by
  suffices ∀ n ∈ required p, n ∈ a.map Prod.fst by
    intro n hn
    exact dget_isSome.2 (this n hn)
  induction h with
  | attr => simp [required]
  | group _ _ hp ih1 ih2 =>
    intro n hn
    rw [(hp.map Prod.fst).mem_iff, List.map_append, List.mem_append]
    rcases List.mem_append.1 hn with hn | hn
    · exact .inl (ih1 n hn)
    · exact .inr (ih2 n hn)
  | inter _ _ hp _ ih1 ih2 =>
    intro n hn
    rw [(hp.map Prod.fst).mem_iff, List.map_append, List.mem_append]
    rcases List.mem_append.1 hn with hn | hn
    · exact .inl (ih1 n hn)
    · exact .inr (ih2 n hn)
  | left _ ih =>
    intro n hn
    exact ih n (List.mem_filter.1 hn).1
  | right _ ih =>
    intro n hn
    exact ih n (by simpa using (List.mem_filter.1 hn).2)
  | one _ ih => exact ih
  | more _ _ hp ih1 _ =>
    intro n hn
    rw [(hp.map Prod.fst).mem_iff, List.map_append, List.mem_append]
    exact .inl (ih1 n hn)
  | _ => simp [required]

/-! ## Making matches -/

theorem perm_attrs {p : Pat} {a b : XAttrs} {c : List Item} (h : Matches x D p a c) (hp : b.Perm a) :
    Matches x D p b c := by
  induction h generalizing b with
  | empty => rw [hp.eq_nil]; exact .empty
  | text h => rw [hp.eq_nil]; exact .text h
  | data h1 h2 h3 => rw [hp.eq_nil]; exact .data h1 h2 h3
  | value h => rw [hp.eq_nil]; exact .value h
  | attr h _ => rw [List.perm_singleton.1 hp]; exact .attr h
  | elem h1 h2 _ => rw [hp.eq_nil]; exact .elem h1 h2
  | group h1 h2 h _ _ => exact .group h1 h2 (hp.trans h)
  | inter h1 h2 h h3 _ _ => exact .inter h1 h2 (hp.trans h) h3
  | left _ ih => exact .left (ih hp)
  | right _ ih => exact .right (ih hp)
  | one _ ih => exact .one (ih hp)
  | more h1 h2 h _ _ => exact .more h1 h2 (hp.trans h)
  | ref _ ih => exact .ref (ih hp)

/-- A group whose first part has no content. -/
theorem group_attrs {p q : Pat} {a b : XAttrs} {c : List Item} (h1 : Matches x D p a []) (h2 : Matches x D q b c) :
    Matches x D (.group p q) (a ++ b) c := .group (c := []) h1 h2 (.refl _)

theorem group_content {p q : Pat} {c d : List Item} (h1 : Matches x D p [] c) (h2 : Matches x D q [] d) :
    Matches x D (.group p q) [] (c ++ d) := .group (a := []) (b := []) h1 h2 (.refl _)

theorem opt_attr {p : Pat} (k : String) (o : Option String) (h : ∀ v, o = some v → Matches x D p [] [.txt v]) :
    Matches x D (.optional (.attr k p)) (optAttr k o) [] := by
  cases o with
  | none => exact .right .empty
  | some v => exact .left (.attr (h v rfl))

theorem opt_text (k : String) (o : Option String) : Matches x D (.optional (.attr k .text)) (optAttr k o) [] :=
  opt_attr k o (fun v _ => .text (by simp))

theorem opt_list {p : Pat} (k : String) (l : List String) (h : l ≠ [] → Matches x D p [] [.txt (joinS l)]) :
    Matches x D (.optional (.attr k p)) (listAttr k l) [] := by
  unfold listAttr
  split
  · rename_i hl
    exact .left (.attr (h (by rintro rfl; simp at hl)))
  · exact .right .empty

theorem plus_nodes {p : Pat} : ∀ (ns : List Node), ns ≠ [] → (∀ n ∈ ns, Matches x D p [] [.node n]) →
    Matches x D (.oneOrMore p) [] (ns.map .node)
  | [], h, _ => absurd rfl h
  | [n], _, h => .one (h n (by simp))
  | n :: m :: ns, _, h =>
    .more (a := []) (b := []) (c := [.node n]) (h n (by simp))
      (plus_nodes (m :: ns) (by simp) (fun k hk => h k (List.mem_cons_of_mem _ hk))) (.refl _)

theorem star_nodes {p : Pat} (ns : List Node) (h : ∀ n ∈ ns, Matches x D p [] [.node n]) :
    Matches x D (.zeroOrMore p) [] (ns.map .node) := by
  cases ns with
  | nil => exact .right .empty
  | cons n ns => exact .left (plus_nodes _ (by simp) h)

theorem shuffle_left {α : Type} : ∀ a : List α, Shuffle a [] a
  | [] => .nil
  | x :: a => .left x (shuffle_left a)

theorem shuffle_right {α : Type} : ∀ a : List α, Shuffle [] a a
  | [] => .nil
  | x :: a => .right x (shuffle_right a)

theorem shuffle_append {α : Type} : ∀ a b : List α, Shuffle a b (a ++ b)
  | [], b => shuffle_right b
  | x :: a, b => .left x (shuffle_append a b)

theorem shuffle_mid {α : Type} (X B : List α) : ∀ A : List α, Shuffle X (A ++ B) (A ++ X ++ B)
  | [] => shuffle_append X B
  | x :: A => .right x (shuffle_mid X B A)

/-- The content of the first part somewhere in the content of the second. -/
theorem inter_mid {p q : Pat} {A B X : List Item} (h1 : Matches x D p [] X) (h2 : Matches x D q [] (A ++ B)) :
    Matches x D (.inter p q) [] (A ++ X ++ B) := .inter (a := []) (b := []) h1 h2 (.refl _) (shuffle_mid X B A)

/-! ## Content -/

theorem contents_nodes (t : String) (a : XAttrs) (ns : List Node) : ns.map .node ∈ contents (.mk t a none ns) := by
  have hb : blank "" = true := by decide
  cases ns <;> simp [contents, Node.text, Node.children, hb]

theorem contents_nodes_inv {t : String} {a : XAttrs} {ns : List Node} {c : List Item} (h : c ∈ contents (.mk t a none ns)) :
    ∀ n ∈ ns, .node n ∈ c := by
  have hb : blank "" = true := by decide
  cases ns with
  | nil => simp
  | cons m ns =>
    simp only [contents, Node.text, Node.children, Option.getD_none, hb, if_true, List.mem_singleton] at h
    subst h
    intro n hn
    exact List.mem_map_of_mem hn

theorem contents_text (t : String) (a : XAttrs) (o : Option String) : [.txt (o.getD "")] ∈ contents (.mk t a o []) := by
  simp only [contents, Node.text, Node.children]
  by_cases hb : blank (o.getD "") = true <;> simp [hb]

theorem contents_text_inv {n : Node} {s : String} (h : [.txt s] ∈ contents n) : n.text.getD "" = s := by
  obtain ⟨t, a, o, cs⟩ := n
  cases cs with
  | nil =>
    simp only [contents, Node.text, Node.children] at h ⊢
    cases hb : blank (o.getD "") <;> simp [hb] at h <;> exact h.symm
  | cons m cs =>
    simp only [contents, Node.text, Node.children] at h
    cases hb : blank (o.getD "") <;> simp [hb] at h

/-- An element with attributes and children. -/
theorem elem_nodes {p : Pat} {t : String} {a : XAttrs} {ns : List Node} (h : Matches x D p a (ns.map .node)) :
    Matches x D (.elem t p) [] [.node (.mk t a none ns)] := .elem (n := .mk t a none ns) (contents_nodes t a ns) h

/-- An element with attributes and a text. -/
theorem elem_text {p : Pat} {t : String} {a : XAttrs} {o : Option String} (h : Matches x D p a [.txt (o.getD "")]) :
    Matches x D (.elem t p) [] [.node (.mk t a o [])] := .elem (n := .mk t a o []) (contents_text t a o) h

end Lgr.Props.C147
