import Verif.Diff
import Verif.Props.Compare

/-!
# C115: what `diff_lgrs` reports
-/

namespace Lgr.Props.C115
open Lgr LGR Repertoire C50 C26 Compare C30 Metadata Diff

/-! ## Specification -/

/-- The list has exactly these elements, once each. -/
def Exactly (l : List Val) (P : Val → Prop) : Prop := l.Nodup ∧ ∀ v, v ∈ l ↔ P v

/-- What of a variant is compared: all but its references. -/
def asVar (v : Variant) : VarProps :=
  { cp := v.cp, type := v.type, whenR := v.whenR, notWhenR := v.notWhenR, comment := v.comment }

/-- How two values are reported: when they differ, both are given. -/
structure ValReport (at_ : Option Seq) (name : String) (a b : Val) (showSame : Bool) (out : List Line) : Prop where
  differs : ∀ x y, .differ at_ name x y ∈ out ↔ a ≠ b ∧ x = a ∧ y = b
  same : ∀ x, .same at_ name x ∈ out ↔ showSame = true ∧ a = b ∧ x = a

/-- How two sets are reported: when they differ, the elements of one only. -/
structure SetReport (at_ : Option Seq) (name : String) (P Q : Val → Prop) (showSame : Bool) (out : List Line) : Prop where
  differs : (∃ a b, .sets at_ name a b ∈ out) ↔ ∃ v, ¬ (P v ↔ Q v)
  lists : ∀ a b, .sets at_ name a b ∈ out → Exactly a (fun v => P v ∧ ¬ Q v) ∧ Exactly b (fun v => Q v ∧ ¬ P v)
  same : (∃ l, .sameSet at_ name l ∈ out) ↔ showSame = true ∧ ∀ v, P v ↔ Q v
  sameLists : ∀ l, .sameSet at_ name l ∈ out → Exactly l P

/-! ## The lines of one comparison -/

theorem mem_compareThings {at_ : Option Seq} {name : String} {a b : Val} {s : Bool} {o : Line} :
    o ∈ compareThings at_ name a b s ↔ (a ≠ b ∧ o = .differ at_ name a b) ∨ (a = b ∧ s = true ∧ o = .same at_ name a) := by
  unfold compareThings
  by_cases h : a = b
  · cases s <;> simp [h]
  · simp [h]

theorem same_iff {a b : List Val} : ((toSet id a).all (fun v => decide (v ∈ toSet id b)) &&
    (toSet id b).all (fun v => decide (v ∈ toSet id a))) = true ↔ ∀ v, v ∈ a ↔ v ∈ b := by
  simp only [Bool.and_eq_true, List.all_eq_true, decide_eq_true_eq, mem_toSet]
  exact ⟨fun h v => ⟨h.1 v, h.2 v⟩, fun h => ⟨fun v => (h v).1, fun v => (h v).2⟩⟩

theorem mem_compareSets {ord : Enum} {at_ : Option Seq} {name : String} {a b : List Val} {s : Bool} {o : Line} :
    o ∈ compareSets ord at_ name a b s ↔
      ((¬ ∀ v, v ∈ a ↔ v ∈ b) ∧ o = .sets at_ name (ord.vals ((toSet id a).filter (fun v => decide (v ∉ toSet id b))))
        (ord.vals ((toSet id b).filter (fun v => decide (v ∉ toSet id a))))) ∨
      ((∀ v, v ∈ a ↔ v ∈ b) ∧ s = true ∧ o = .sameSet at_ name (ord.vals (toSet id a))) := by
  unfold compareSets
  dsimp only
  by_cases h : ∀ v, v ∈ a ↔ v ∈ b
  · rw [if_neg (by rw [same_iff.2 h]; simp)]
    cases s <;> simp [h]
  · rw [if_pos (by rw [Bool.eq_false_iff]; exact fun h2 => h (same_iff.1 h2))]
    simp [h]

theorem exactly_toSet (ord : Enum) (a : List Val) : Exactly (ord.vals (toSet id a)) (· ∈ a) :=
  ⟨(ord.vals_perm _).nodup_iff.2 (nodup_toSet _), fun v => by rw [(ord.vals_perm _).mem_iff, mem_toSet]⟩

theorem exactly_minus (ord : Enum) (a b : List Val) :
    Exactly (ord.vals ((toSet id a).filter (fun v => decide (v ∉ toSet id b)))) (fun v => v ∈ a ∧ ¬ v ∈ b) :=
  ⟨(ord.vals_perm _).nodup_iff.2 ((nodup_toSet _).filter _), fun v => by
    rw [(ord.vals_perm _).mem_iff, List.mem_filter, decide_eq_true_eq, mem_toSet, mem_toSet]⟩

/-- A report in which the lines on this name are those of one comparison. -/
theorem valReport {at_ : Option Seq} {name : String} {a b : Val} {s : Bool} {out : List Line}
    (h1 : ∀ x y, .differ at_ name x y ∈ out ↔ .differ at_ name x y ∈ compareThings at_ name a b s)
    (h2 : ∀ x, .same at_ name x ∈ out ↔ .same at_ name x ∈ compareThings at_ name a b s) :
    ValReport at_ name a b s out := by
  refine ⟨fun x y => ?_, fun x => ?_⟩
  · rw [h1, mem_compareThings]; simp
  · rw [h2, mem_compareThings]; simp only [reduceCtorEq, and_false, false_or, Line.same.injEq, true_and]
    tauto

theorem setReport {ord : Enum} {at_ : Option Seq} {name : String} {a b : List Val} {s : Bool} {out : List Line}
    (h1 : ∀ x y, .sets at_ name x y ∈ out ↔ .sets at_ name x y ∈ compareSets ord at_ name a b s)
    (h2 : ∀ x, .sameSet at_ name x ∈ out ↔ .sameSet at_ name x ∈ compareSets ord at_ name a b s) :
    SetReport at_ name (· ∈ a) (· ∈ b) s out := by
  refine ⟨?_, fun x y hxy => ?_, ?_, fun l hl => ?_⟩
  · simp only [h1, mem_compareSets]
    simp only [reduceCtorEq, and_false, or_false, Line.sets.injEq, true_and]
    rw [not_forall]
    constructor
    · rintro ⟨_, _, h, -⟩; exact h
    · exact fun h => ⟨_, _, h, rfl, rfl⟩
  · rw [h1, mem_compareSets] at hxy
    simp only [reduceCtorEq, and_false, or_false, Line.sets.injEq, true_and] at hxy
    obtain ⟨-, rfl, rfl⟩ := hxy
    exact ⟨exactly_minus ord a b, exactly_minus ord b a⟩
  · simp only [h2, mem_compareSets]
    simp only [reduceCtorEq, and_false, false_or, Line.sameSet.injEq, true_and]
    constructor
    · rintro ⟨_, h3, h4, -⟩; exact ⟨h4, h3⟩
    · exact fun h => ⟨_, h.2, h.1, rfl⟩
  · rw [h2, mem_compareSets] at hl
    simp only [reduceCtorEq, and_false, false_or, Line.sameSet.injEq, true_and] at hl
    rw [hl.2.2]
    exact exactly_toSet ord a

theorem SetReport.congr {at_ : Option Seq} {name : String} {P P' Q Q' : Val → Prop} {s : Bool} {out : List Line}
    (h : SetReport at_ name P Q s out) (hp : ∀ v, P v ↔ P' v) (hq : ∀ v, Q v ↔ Q' v) : SetReport at_ name P' Q' s out := by
  have e1 : P = P' := funext fun v => propext (hp v)
  have e2 : Q = Q' := funext fun v => propext (hq v)
  rw [← e1, ← e2]; exact h

/-! ## One code point -/

/-- The two entries have the same comment, tags and variants; neither contexts nor references are looked at. -/
structure SameChar (c1 c2 : CharObj) : Prop where
  comment : c1.attrs.comment = c2.attrs.comment
  tags : c1.attrs.tags = c2.attrs.tags
  variants : ∀ p, (∃ v ∈ c1.getVariants, asVar v = p) ↔ ∃ v ∈ c2.getVariants, asVar v = p

theorem sameVars_iff {c1 c2 : CharObj} : sameVars c1 c2 = true ↔ ∀ v, v ∈ varsOf c1 ↔ v ∈ varsOf c2 := by
  unfold sameVars
  simp only [Bool.and_eq_true, List.all_eq_true, decide_eq_true_eq]
  exact ⟨fun h v => ⟨h.1 v, h.2 v⟩, fun h => ⟨fun v => (h v).1, fun v => (h v).2⟩⟩

theorem mem_varsOf {c : CharObj} {v : Val} : v ∈ varsOf c ↔ ∃ u ∈ c.getVariants, v = .var (asVar u) := by
  unfold varsOf
  rw [List.mem_map]
  exact exists_congr fun u => and_congr_right fun _ => eq_comm

theorem sameVars_spec {c1 c2 : CharObj} : (∀ v, v ∈ varsOf c1 ↔ v ∈ varsOf c2) ↔
    ∀ p, (∃ v ∈ c1.getVariants, asVar v = p) ↔ ∃ v ∈ c2.getVariants, asVar v = p := by
  have key : ∀ c p, Val.var p ∈ varsOf c ↔ ∃ v ∈ c.getVariants, asVar v = p := by
    intro c p
    rw [mem_varsOf]
    exact exists_congr fun u => and_congr_right fun _ => by rw [Val.var.injEq, eq_comm]
  constructor
  · intro h p
    rw [← key, ← key]; exact h _
  · intro h v
    by_cases hv : ∃ p, v = .var p
    · obtain ⟨p, rfl⟩ := hv
      rw [key, key]; exact h p
    · constructor
      · intro hm
        obtain ⟨u, -, rfl⟩ := mem_varsOf.1 hm
        exact absurd ⟨_, rfl⟩ hv
      · intro hm
        obtain ⟨u, -, rfl⟩ := mem_varsOf.1 hm
        exact absurd ⟨_, rfl⟩ hv

theorem mem_diffChar {ord : Enum} {c1 c2 : CharObj} {s : Bool} {o : Line} : o ∈ diffChar ord c1 c2 s ↔
    o ∈ compareThings (some c1.cp) "comment" (.str c1.attrs.comment) (.str c2.attrs.comment) s ∨
    o ∈ compareThings (some c1.cp) "tags" (.strs c1.attrs.tags) (.strs c2.attrs.tags) s ∨
    o ∈ compareSets ord (some c1.cp) "variants" (varsOf c1) (varsOf c2) s := by
  unfold diffChar
  split
  · rename_i h
    obtain ⟨h1, h2, h3, h4⟩ := h
    simp only [mem_compareThings, mem_compareSets, h1, h2, h3, sameVars_iff.1 h4]
    simp
  · simp only [List.mem_append, or_assoc]

theorem diffChar_nil_iff {ord : Enum} {c1 c2 : CharObj} : diffChar ord c1 c2 false = [] ↔ SameChar c1 c2 := by
  rw [List.eq_nil_iff_forall_not_mem]
  simp only [mem_diffChar, mem_compareThings, mem_compareSets, Bool.false_eq_true, false_and, and_false, or_false,
    not_or, not_and]
  constructor
  · intro h
    refine ⟨?_, ?_, sameVars_spec.1 ?_⟩
    · by_contra hn
      exact (h _).1 (by simpa using hn) rfl
    · by_contra hn
      exact (h _).2.1 (by simpa using hn) rfl
    · by_contra hn
      exact (h _).2.2 hn rfl
  · intro h o
    exact ⟨fun hn => absurd (by rw [h.comment]) hn, fun hn => absurd (by rw [h.tags]) hn,
      fun hn => absurd (sameVars_spec.2 h.variants) hn⟩

/-- What the loop writes for one code point. -/
def block (ord : Enum) (s : Bool) (k : Seq) (c1 c2 : CharObj) : List Line :=
  if s = false ∧ diffChar ord c1 c2 s = [] then [] else .codePoint k :: diffChar ord c1 c2 s

theorem charLoop_eq {ord : Enum} {db1 db2 : UniDb} {g1 g2 : LGR} {s : Bool} {f1 f2 : Seq → CharObj} : ∀ {ks : List Seq},
    (∀ k ∈ ks, g1.getChar db1 (.seq k) = .ok (f1 k)) → (∀ k ∈ ks, g2.getChar db2 (.seq k) = .ok (f2 k)) →
    charLoop ord db1 db2 g1 g2 s ks = .ok (ks.flatMap (fun k => block ord s k (f1 k) (f2 k)),
      (ks.filter (fun k => decide (s = false ∧ diffChar ord (f1 k) (f2 k) s = []))).length)
  | [], _, _ => rfl
  | k :: ks, h1, h2 => by
    unfold charLoop
    rw [h1 k (by simp), h2 k (by simp), charLoop_eq (fun j hj => h1 j (by simp [hj])) (fun j hj => h2 j (by simp [hj]))]
    dsimp only
    by_cases h : s = false ∧ diffChar ord (f1 k) (f2 k) s = []
    · rw [if_pos h, List.flatMap_cons, block, if_pos h, List.filter_cons_of_pos (by simpa using h)]
      simp
    · rw [if_neg h, List.flatMap_cons, block, if_neg h, List.filter_cons_of_neg (by simpa using h)]

/-! ## The whole -/

/-- What is said on the repertoires, for entries given by `e1` and `e2`. -/
structure RepReport (e1 e2 : Seq → Option CharObj) (s : Bool) (out : List Line) : Prop where
  /-- The code points of one LGR only are listed. -/
  repertoire : SetReport none "repertoire" (fun v => ∃ k c, e1 k = some c ∧ v = .cp k)
    (fun v => ∃ k c, e2 k = some c ∧ v = .cp k) s out
  /-- The code points with a block. -/
  codePoint : ∀ k, .codePoint k ∈ out ↔ ∃ c1 c2, e1 k = some c1 ∧ e2 k = some c2 ∧ (s = true ∨ ¬ SameChar c1 c2)
  comment : ∀ k c1 c2, e1 k = some c1 → e2 k = some c2 →
    ValReport (some k) "comment" (.str c1.attrs.comment) (.str c2.attrs.comment) s out
  tags : ∀ k c1 c2, e1 k = some c1 → e2 k = some c2 →
    ValReport (some k) "tags" (.strs c1.attrs.tags) (.strs c2.attrs.tags) s out
  variants : ∀ k c1 c2, e1 k = some c1 → e2 k = some c2 →
    SetReport (some k) "variants" (fun v => ∃ u ∈ c1.getVariants, v = .var (asVar u))
      (fun v => ∃ u ∈ c2.getVariants, v = .var (asVar u)) s out
  /-- The number of the code points without a block. -/
  identical : ∀ n, .identical n ∈ out ↔ s = false ∧ 0 < n ∧ ∃ ks : List Seq, ks.Nodup ∧ ks.length = n ∧
    ∀ k, k ∈ ks ↔ ∃ c1 c2, e1 k = some c1 ∧ e2 k = some c2 ∧ SameChar c1 c2

/-- What is said on the metadata. -/
structure MetaReport (m1 m2 : Metadata) (s : Bool) (out : List Line) : Prop where
  no : ∀ first what, .no first what ∈ out ↔
    (what = "version" ∧ (if first then m1.version = none else m2.version = none)) ∨
    (what = "description" ∧ (if first then m1.description = none else m2.description = none))
  version : ∀ a b, m1.version = some a → m2.version = some b →
    ValReport none "version" (.str (some a.value)) (.str (some b.value)) s out ∧
    ValReport none "version comment" (.str a.comment) (.str b.comment) s out
  description : ∀ a b, m1.description = some a → m2.description = some b →
    ValReport none "description type" (.str a.type) (.str b.type) s out ∧
    ValReport none "description" (.str (some a.value)) (.str (some b.value)) s out
  scopes : SetReport none "scopes" (fun v => ∃ x ∈ m1.scopes, v = .scope x) (fun v => ∃ x ∈ m2.scopes, v = .scope x) s out
  languages : SetReport none "languages" (fun v => ∃ x ∈ m1.languages, v = .str (some x))
    (fun v => ∃ x ∈ m2.languages, v = .str (some x)) s out
  date : ValReport none "date" (.chars m1.date) (.chars m2.date) s out
  validityStart : ValReport none "validity start" (.chars m1.validityStart) (.chars m2.validityStart) s out
  validityEnd : ValReport none "validity end" (.chars m1.validityEnd) (.chars m2.validityEnd) s out
  unicodeVersion : ValReport none "unicode version" (.chars m1.unicodeVersion) (.chars m2.unicodeVersion) s out

/-- Two sets of names. -/
def NameReport (name : String) (P Q : String → Prop) (s : Bool) (out : List Line) : Prop :=
  SetReport none name (fun v => ∃ x, P x ∧ v = .str (some x)) (fun v => ∃ x, Q x ∧ v = .str (some x)) s out

/-- What `diff_lgrs` writes. -/
structure DiffReport (d1 d2 : Doc) (s : Bool) (out : List Line) : Prop where
  metadata : MetaReport d1.metadata d2.metadata s out
  references : NameReport "references" (· ∈ values d1.lgr.refs) (· ∈ values d2.lgr.refs) s out
  rep : RepReport d1.lgr.rep.lookup d2.lgr.rep.lookup s out
  /-- Only the dispositions of the actions, the names of the rules and of the classes. -/
  actions : NameReport "actions" (fun x => ∃ a ∈ d1.actions, a.disp = x) (fun x => ∃ a ∈ d2.actions, a.disp = x) false out
  rules : NameReport "rules" (· ∈ d1.rules.map Prod.fst) (· ∈ d2.rules.map Prod.fst) false out
  classes : NameReport "classes" (· ∈ d1.classes.map Prod.fst) (· ∈ d2.classes.map Prod.fst) false out

theorem mem_headed {h : String} {ls : List Line} {o : Line} :
    o ∈ headed h ls ↔ o ∈ ls ∨ (ls ≠ [] ∧ o = .heading h) := by
  unfold headed
  split
  · rename_i he; simp [he]
  · rename_i he
    simp only [List.mem_cons, ne_eq, he, not_false_eq_true, true_and]
    exact or_comm

theorem mem_diffVersion {a b : Option Version} {s : Bool} {o : Line} (ho : ∀ h, o ≠ .heading h) :
    o ∈ diffVersion a b s ↔ (a = none ∧ o = .no true "version") ∨ (b = none ∧ o = .no false "version") ∨
      ∃ x y, a = some x ∧ b = some y ∧
        (o ∈ compareThings none "version" (.str (some x.value)) (.str (some y.value)) s ∨
          o ∈ compareThings none "version comment" (.str x.comment) (.str y.comment) s) := by
  unfold diffVersion
  rw [mem_headed]
  simp only [ho, and_false, or_false]
  cases a <;> cases b <;> simp

theorem mem_diffDescription {a b : Option Description} {s : Bool} {o : Line} (ho : ∀ h, o ≠ .heading h) :
    o ∈ diffDescription a b s ↔ (a = none ∧ o = .no true "description") ∨ (b = none ∧ o = .no false "description") ∨
      ∃ x y, a = some x ∧ b = some y ∧
        (o ∈ compareThings none "description type" (.str x.type) (.str y.type) s ∨
          o ∈ compareThings none "description" (.str (some x.value)) (.str (some y.value)) s) := by
  unfold diffDescription
  rw [mem_headed]
  simp only [ho, and_false, or_false]
  cases a <;> cases b <;> simp

theorem mem_block {ord : Enum} {s : Bool} {k : Seq} {c1 c2 : CharObj} {o : Line} : o ∈ block ord s k c1 c2 ↔
    (o = .codePoint k ∧ (s = true ∨ ¬ SameChar c1 c2)) ∨ o ∈ diffChar ord c1 c2 s := by
  unfold block
  cases s with
  | false =>
    by_cases h : SameChar c1 c2
    · rw [if_pos ⟨rfl, diffChar_nil_iff.2 h⟩, diffChar_nil_iff.2 h]; simp [h]
    · rw [if_neg (fun h2 => h (diffChar_nil_iff.1 h2.2))]; simp [h]
  | true => simp

/-- The text, for LGRs with expanded ranges. -/
def text (ord : Enum) (d1 d2 : Doc) (g1 g2 : LGR) (s : Bool) (ls : List Line) (n : Nat) : List Line :=
  diffMetadata ord "Compare Metadata" d1.metadata d2.metadata s ++
    compareNames ord "references" (values g1.refs) (values g2.refs) s ++
    [.heading "Compare repertoire"] ++
    compareSets ord none "repertoire" ((cps g1).map .cp) ((cps g2).map .cp) s ++
    [.heading "Compare common code points in repertoire"] ++ ls ++
    (if s = false ∧ 0 < n then [.identical n] else []) ++
    [.heading "Compare WLE"] ++
    compareNames ord "actions" (d1.actions.map Action.disp) (d2.actions.map Action.disp) false ++
    compareNames ord "rules" (d1.rules.map Prod.fst) (d2.rules.map Prod.fst) false ++
    compareNames ord "classes" (d1.classes.map Prod.fst) (d2.classes.map Prod.fst) false

theorem mem_diffMetadata {ord : Enum} {h : String} {m1 m2 : Metadata} {s : Bool} {o : Line} (ho : ∀ h, o ≠ .heading h) :
    o ∈ diffMetadata ord h m1 m2 s ↔ o ∈ diffVersion m1.version m2.version s ∨
      o ∈ diffDescription m1.description m2.description s ∨
      o ∈ compareSets ord none "scopes" (m1.scopes.map .scope) (m2.scopes.map .scope) s ∨
      o ∈ compareSets ord none "languages" (m1.languages.map (fun l => .str (some l)))
        (m2.languages.map (fun l => .str (some l))) s ∨
      o ∈ compareThings none "date" (.chars m1.date) (.chars m2.date) s ∨
      o ∈ compareThings none "validity start" (.chars m1.validityStart) (.chars m2.validityStart) s ∨
      o ∈ compareThings none "validity end" (.chars m1.validityEnd) (.chars m2.validityEnd) s ∨
      o ∈ compareThings none "unicode version" (.chars m1.unicodeVersion) (.chars m2.unicodeVersion) s := by
  unfold diffMetadata
  rw [mem_headed]
  simp only [ho, and_false, or_false, List.mem_append, or_assoc]

theorem mem_text {ord : Enum} {d1 d2 : Doc} {g1 g2 : LGR} {s : Bool} {ls : List Line} {n : Nat} {o : Line}
    (ho : ∀ h, o ≠ .heading h) : o ∈ text ord d1 d2 g1 g2 s ls n ↔
      o ∈ diffMetadata ord "Compare Metadata" d1.metadata d2.metadata s ∨
      o ∈ compareNames ord "references" (values g1.refs) (values g2.refs) s ∨
      o ∈ compareSets ord none "repertoire" ((cps g1).map .cp) ((cps g2).map .cp) s ∨ o ∈ ls ∨
      (s = false ∧ 0 < n ∧ o = .identical n) ∨
      o ∈ compareNames ord "actions" (d1.actions.map Action.disp) (d2.actions.map Action.disp) false ∨
      o ∈ compareNames ord "rules" (d1.rules.map Prod.fst) (d2.rules.map Prod.fst) false ∨
      o ∈ compareNames ord "classes" (d1.classes.map Prod.fst) (d2.classes.map Prod.fst) false := by
  unfold text
  have hif : o ∈ (if s = false ∧ 0 < n then [Line.identical n] else []) ↔ (s = false ∧ 0 < n ∧ o = .identical n) := by
    split
    · rename_i h; simp [h]
    · rename_i h
      simp only [List.not_mem_nil, false_iff]
      rintro ⟨h1, h2, -⟩; exact h ⟨h1, h2⟩
  simp only [List.mem_append, List.mem_singleton, ho, or_false, hif, or_assoc, false_or]

/-- The lines of the loop. -/
def Blocks (ord : Enum) (s : Bool) (E : Seq → CharObj → CharObj → Prop) (ls : List Line) : Prop :=
  ∀ o, o ∈ ls ↔ ∃ k c1 c2, E k c1 c2 ∧ o ∈ block ord s k c1 c2

theorem Blocks.other {ord : Enum} {s : Bool} {E : Seq → CharObj → CharObj → Prop} {ls : List Line} (h : Blocks ord s E ls)
    (he : ∀ k c1 c2, E k c1 c2 → c1.cp = k) {o : Line} (ho : o ∈ ls) :
    (∃ k, o = .codePoint k) ∨ (∃ k n a b, o = .differ (some k) n a b) ∨ (∃ k n a b, o = .sets (some k) n a b) ∨
      (∃ k n a, o = .same (some k) n a) ∨ ∃ k n a, o = .sameSet (some k) n a := by
  obtain ⟨k, c1, c2, -, hb⟩ := (h o).1 ho
  rw [mem_block, mem_diffChar, mem_compareThings, mem_compareThings, mem_compareSets] at hb
  rcases hb with ⟨rfl, -⟩ | (⟨-, rfl⟩ | ⟨-, -, rfl⟩) | (⟨-, rfl⟩ | ⟨-, -, rfl⟩) | (⟨-, rfl⟩ | ⟨-, -, rfl⟩)
  · exact .inl ⟨_, rfl⟩
  · exact .inr (.inl ⟨_, _, _, _, rfl⟩)
  · exact .inr (.inr (.inr (.inl ⟨_, _, _, rfl⟩)))
  · exact .inr (.inl ⟨_, _, _, _, rfl⟩)
  · exact .inr (.inr (.inr (.inl ⟨_, _, _, rfl⟩)))
  · exact .inr (.inr (.inl ⟨_, _, _, _, rfl⟩))
  · exact .inr (.inr (.inr (.inr ⟨_, _, _, rfl⟩)))

theorem text_meta {ord : Enum} {d1 d2 : Doc} {g1 g2 : LGR} {s : Bool} {ls : List Line} {n : Nat}
    {E : Seq → CharObj → CharObj → Prop} (h : Blocks ord s E ls) (he : ∀ k c1 c2, E k c1 c2 → c1.cp = k) :
    MetaReport d1.metadata d2.metadata s (text ord d1 d2 g1 g2 s ls n) := by
  have hd : ∀ nm x y, Line.differ none nm x y ∉ ls := by
    intro nm x y hm; have := h.other he hm; simp at this
  have hs : ∀ nm x, Line.same none nm x ∉ ls := by
    intro nm x hm; have := h.other he hm; simp at this
  have hss : ∀ nm x y, Line.sets none nm x y ∉ ls := by
    intro nm x y hm; have := h.other he hm; simp at this
  have hsm : ∀ nm x, Line.sameSet none nm x ∉ ls := by
    intro nm x hm; have := h.other he hm; simp at this
  have hno : ∀ a b, Line.no a b ∉ ls := by
    intro a b hm; have := h.other he hm; simp at this
  have mt : ∀ o, (∀ h, o ≠ Line.heading h) → (o ∈ text ord d1 d2 g1 g2 s ls n ↔ _) := fun o ho => mem_text ho
  have mm : ∀ o, (∀ h, o ≠ Line.heading h) → (o ∈ diffMetadata ord "Compare Metadata" d1.metadata d2.metadata s ↔ _) :=
    fun o ho => mem_diffMetadata ho
  have key : ∀ o, (∀ h, o ≠ Line.heading h) → o ∉ ls → _ := fun o ho hl => by
    have := mt o ho
    rw [mm o ho, mem_diffVersion ho, mem_diffDescription ho] at this
    unfold compareNames at this
    simp only [hl, false_or, mem_compareThings, mem_compareSets, or_assoc] at this
    exact this
  refine ⟨fun first what => ?_, fun a b h1 h2 => ⟨valReport (fun x y => ?_) (fun x => ?_), valReport (fun x y => ?_) (fun x => ?_)⟩,
    fun a b h1 h2 => ⟨valReport (fun x y => ?_) (fun x => ?_), valReport (fun x y => ?_) (fun x => ?_)⟩, ?_, ?_,
    valReport (fun x y => ?_) (fun x => ?_), valReport (fun x y => ?_) (fun x => ?_),
    valReport (fun x y => ?_) (fun x => ?_), valReport (fun x y => ?_) (fun x => ?_)⟩
  · rw [key _ (by simp) (hno _ _)]
    cases first <;> simp <;> tauto
  · rw [key _ (by simp) (hd _ _ _), mem_compareThings]; simp [h1, h2]
  · rw [key _ (by simp) (hs _ _), mem_compareThings]; simp [h1, h2]
  · rw [key _ (by simp) (hd _ _ _), mem_compareThings]; simp [h1, h2]
  · rw [key _ (by simp) (hs _ _), mem_compareThings]; simp [h1, h2]
  · rw [key _ (by simp) (hd _ _ _), mem_compareThings]; simp [h1, h2]
  · rw [key _ (by simp) (hs _ _), mem_compareThings]; simp [h1, h2]
  · rw [key _ (by simp) (hd _ _ _), mem_compareThings]; simp [h1, h2]
  · rw [key _ (by simp) (hs _ _), mem_compareThings]; simp [h1, h2]
  · refine (setReport (ord := ord) (a := d1.metadata.scopes.map .scope) (b := d2.metadata.scopes.map .scope)
      (fun x y => ?_) (fun x => ?_)).congr (fun v => ?_) (fun v => ?_)
    · rw [key _ (by simp) (hss _ _ _), mem_compareSets]; simp
    · rw [key _ (by simp) (hsm _ _), mem_compareSets]; simp
    · simp [eq_comm]
    · simp [eq_comm]
  · refine (setReport (ord := ord) (a := d1.metadata.languages.map (fun l => .str (some l)))
      (b := d2.metadata.languages.map (fun l => .str (some l))) (fun x y => ?_) (fun x => ?_)).congr
      (fun v => ?_) (fun v => ?_)
    · rw [key _ (by simp) (hss _ _ _), mem_compareSets]; simp
    · rw [key _ (by simp) (hsm _ _), mem_compareSets]; simp
    · simp [eq_comm]
    · simp [eq_comm]
  · rw [key _ (by simp) (hd _ _ _), mem_compareThings]; simp
  · rw [key _ (by simp) (hs _ _), mem_compareThings]; simp
  · rw [key _ (by simp) (hd _ _ _), mem_compareThings]; simp
  · rw [key _ (by simp) (hs _ _), mem_compareThings]; simp
  · rw [key _ (by simp) (hd _ _ _), mem_compareThings]; simp
  · rw [key _ (by simp) (hs _ _), mem_compareThings]; simp
  · rw [key _ (by simp) (hd _ _ _), mem_compareThings]; simp
  · rw [key _ (by simp) (hs _ _), mem_compareThings]; simp

theorem text_names {ord : Enum} {d1 d2 : Doc} {g1 g2 : LGR} {s : Bool} {ls : List Line} {n : Nat}
    {E : Seq → CharObj → CharObj → Prop} (h : Blocks ord s E ls) (he : ∀ k c1 c2, E k c1 c2 → c1.cp = k) :
    NameReport "references" (· ∈ values g1.refs) (· ∈ values g2.refs) s (text ord d1 d2 g1 g2 s ls n) ∧
    NameReport "actions" (fun x => ∃ a ∈ d1.actions, a.disp = x) (fun x => ∃ a ∈ d2.actions, a.disp = x) false
      (text ord d1 d2 g1 g2 s ls n) ∧
    NameReport "rules" (· ∈ d1.rules.map Prod.fst) (· ∈ d2.rules.map Prod.fst) false (text ord d1 d2 g1 g2 s ls n) ∧
    NameReport "classes" (· ∈ d1.classes.map Prod.fst) (· ∈ d2.classes.map Prod.fst) false
      (text ord d1 d2 g1 g2 s ls n) ∧
    SetReport none "repertoire" (fun v => ∃ k, k ∈ cps g1 ∧ v = .cp k) (fun v => ∃ k, k ∈ cps g2 ∧ v = .cp k) s
      (text ord d1 d2 g1 g2 s ls n) := by
  have hss : ∀ nm x y, Line.sets none nm x y ∉ ls := by
    intro nm x y hm; have := h.other he hm; simp at this
  have hsm : ∀ nm x, Line.sameSet none nm x ∉ ls := by
    intro nm x hm; have := h.other he hm; simp at this
  have key : ∀ o, (∀ h, o ≠ Line.heading h) → o ∉ ls → _ := fun o ho hl => by
    have := mem_text (ord := ord) (d1 := d1) (d2 := d2) (g1 := g1) (g2 := g2) (s := s) (ls := ls) (n := n) ho
    rw [mem_diffMetadata ho, mem_diffVersion ho, mem_diffDescription ho] at this
    unfold compareNames at this
    simp only [hl, false_or, mem_compareThings, mem_compareSets, or_assoc] at this
    exact this
  refine ⟨?_, ?_, ?_, ?_, ?_⟩
  · refine (setReport (ord := ord) (a := (values g1.refs).map (fun s => .str (some s)))
      (b := (values g2.refs).map (fun s => .str (some s))) (fun x y => ?_) (fun x => ?_)).congr (fun v => ?_) (fun v => ?_)
    · rw [key _ (by simp) (hss _ _ _), mem_compareSets]; simp
    · rw [key _ (by simp) (hsm _ _), mem_compareSets]; simp
    · simp [eq_comm]
    · simp [eq_comm]
  · refine (setReport (ord := ord) (a := (d1.actions.map Action.disp).map (fun s => .str (some s)))
      (b := (d2.actions.map Action.disp).map (fun s => .str (some s))) (fun x y => ?_) (fun x => ?_)).congr
      (fun v => ?_) (fun v => ?_)
    · rw [key _ (by simp) (hss _ _ _), mem_compareSets]; simp
    · rw [key _ (by simp) (hsm _ _), mem_compareSets]; simp
    · simp [eq_comm]
    · simp [eq_comm]
  · refine (setReport (ord := ord) (a := (d1.rules.map Prod.fst).map (fun s => .str (some s)))
      (b := (d2.rules.map Prod.fst).map (fun s => .str (some s))) (fun x y => ?_) (fun x => ?_)).congr
      (fun v => ?_) (fun v => ?_)
    · rw [key _ (by simp) (hss _ _ _), mem_compareSets]; simp
    · rw [key _ (by simp) (hsm _ _), mem_compareSets]; simp
    · simp [eq_comm]
    · simp [eq_comm]
  · refine (setReport (ord := ord) (a := (d1.classes.map Prod.fst).map (fun s => .str (some s)))
      (b := (d2.classes.map Prod.fst).map (fun s => .str (some s))) (fun x y => ?_) (fun x => ?_)).congr
      (fun v => ?_) (fun v => ?_)
    · rw [key _ (by simp) (hss _ _ _), mem_compareSets]; simp
    · rw [key _ (by simp) (hsm _ _), mem_compareSets]; simp
    · simp [eq_comm]
    · simp [eq_comm]
  · refine (setReport (ord := ord) (a := (cps g1).map .cp) (b := (cps g2).map .cp) (fun x y => ?_) (fun x => ?_)).congr
      (fun v => ?_) (fun v => ?_)
    · rw [key _ (by simp) (hss _ _ _), mem_compareSets]; simp
    · rw [key _ (by simp) (hsm _ _), mem_compareSets]; simp
    · simp [eq_comm]
    · simp [eq_comm]

/-- The lines below a code point. -/
theorem text_below {ord : Enum} {d1 d2 : Doc} {g1 g2 : LGR} {s : Bool} {ls : List Line} {n : Nat}
    {E : Seq → CharObj → CharObj → Prop} (h : Blocks ord s E ls)
    (he : ∀ k c1 c2, E k c1 c2 → c1.cp = k) (hu : ∀ k c1 c2 c1' c2', E k c1 c2 → E k c1' c2' → c1 = c1' ∧ c2 = c2') :
    (∀ k, .codePoint k ∈ text ord d1 d2 g1 g2 s ls n ↔ ∃ c1 c2, E k c1 c2 ∧ (s = true ∨ ¬ SameChar c1 c2)) ∧
    ∀ k c1 c2, E k c1 c2 →
      ValReport (some k) "comment" (.str c1.attrs.comment) (.str c2.attrs.comment) s (text ord d1 d2 g1 g2 s ls n) ∧
      ValReport (some k) "tags" (.strs c1.attrs.tags) (.strs c2.attrs.tags) s (text ord d1 d2 g1 g2 s ls n) ∧
      SetReport (some k) "variants" (fun v => ∃ u ∈ c1.getVariants, v = .var (asVar u))
        (fun v => ∃ u ∈ c2.getVariants, v = .var (asVar u)) s (text ord d1 d2 g1 g2 s ls n) := by
  have key : ∀ o, (∀ h, o ≠ Line.heading h) → _ := fun o ho => by
    have := mem_text (ord := ord) (d1 := d1) (d2 := d2) (g1 := g1) (g2 := g2) (s := s) (ls := ls) (n := n) ho
    rw [mem_diffMetadata ho, mem_diffVersion ho, mem_diffDescription ho] at this
    unfold compareNames at this
    simp only [mem_compareThings, mem_compareSets, or_assoc] at this
    exact this
  have key2 : ∀ k c1 c2, E k c1 c2 → ∀ o, ((∃ nm a b, o = Line.differ (some k) nm a b) ∨
      (∃ nm a, o = Line.same (some k) nm a) ∨ (∃ nm a b, o = Line.sets (some k) nm a b) ∨
      ∃ nm a, o = Line.sameSet (some k) nm a) → (o ∈ text ord d1 d2 g1 g2 s ls n ↔ o ∈ diffChar ord c1 c2 s) := by
    intro k c1 c2 hE o ho
    have h1 : o ∈ text ord d1 d2 g1 g2 s ls n ↔ o ∈ ls := by
      rcases ho with ⟨nm, a, b, rfl⟩ | ⟨nm, a, rfl⟩ | ⟨nm, a, b, rfl⟩ | ⟨nm, a, rfl⟩ <;> rw [key _ (by simp)] <;> simp
    rw [h1, h o]
    constructor
    · rintro ⟨k', c1', c2', hE', hb⟩
      rw [mem_block] at hb
      rcases hb with ⟨rfl, -⟩ | hb
      · simp at ho
      · have hk : k' = k := by
          have := he _ _ _ hE'
          rw [mem_diffChar, mem_compareThings, mem_compareThings, mem_compareSets] at hb
          rcases hb with (⟨-, rfl⟩ | ⟨-, -, rfl⟩) | (⟨-, rfl⟩ | ⟨-, -, rfl⟩) | (⟨-, rfl⟩ | ⟨-, -, rfl⟩) <;>
            · rw [this] at ho
              simpa using ho
        subst hk
        obtain ⟨rfl, rfl⟩ := hu _ _ _ _ _ hE hE'
        exact hb
    · exact fun hb => ⟨k, c1, c2, hE, mem_block.2 (.inr hb)⟩
  refine ⟨fun k => ?_, fun k c1 c2 hE => ?_⟩
  · have h1 : .codePoint k ∈ text ord d1 d2 g1 g2 s ls n ↔ .codePoint k ∈ ls := by
      rw [key _ (by simp)]; simp
    rw [h1, h]
    constructor
    · rintro ⟨k', c1, c2, hE, hb⟩
      rw [mem_block] at hb
      rcases hb with ⟨h2, h3⟩ | hb
      · cases h2
        exact ⟨c1, c2, hE, h3⟩
      · rw [mem_diffChar, mem_compareThings, mem_compareThings, mem_compareSets] at hb
        simp at hb
    · rintro ⟨c1, c2, hE, h3⟩
      exact ⟨k, c1, c2, hE, mem_block.2 (.inl ⟨rfl, h3⟩)⟩
  · have hk := he _ _ _ hE
    clear key
    refine ⟨valReport (fun x y => ?_) (fun x => ?_), valReport (fun x y => ?_) (fun x => ?_), ?_⟩
    · rw [key2 k c1 c2 hE _ (.inl ⟨_, _, _, rfl⟩)]; simp only [mem_diffChar, hk, mem_compareThings, mem_compareSets]; simp
    · rw [key2 k c1 c2 hE _ (.inr (.inl ⟨_, _, rfl⟩))]; simp only [mem_diffChar, hk, mem_compareThings, mem_compareSets]; simp
    · rw [key2 k c1 c2 hE _ (.inl ⟨_, _, _, rfl⟩)]; simp only [mem_diffChar, hk, mem_compareThings, mem_compareSets]; simp
    · rw [key2 k c1 c2 hE _ (.inr (.inl ⟨_, _, rfl⟩))]; simp only [mem_diffChar, hk, mem_compareThings, mem_compareSets]; simp
    · refine (setReport (ord := ord) (a := varsOf c1) (b := varsOf c2) (fun x y => ?_) (fun x => ?_)).congr
        (fun v => mem_varsOf) (fun v => mem_varsOf)
      · rw [key2 k c1 c2 hE _ (.inr (.inr (.inl ⟨_, _, _, rfl⟩)))]; simp only [mem_diffChar, hk, mem_compareThings, mem_compareSets]; simp
      · rw [key2 k c1 c2 hE _ (.inr (.inr (.inr ⟨_, _, rfl⟩)))]; simp only [mem_diffChar, hk, mem_compareThings, mem_compareSets]; simp

/-- Every entry passes the IDNA check. -/
def AllIdna (db : UniDb) (g : LGR) : Prop := ∀ k c, g.rep.lookup k = some c → IdnaOk db g k

theorem expands {db : UniDb} {g : LGR} (hwf : WF g.rep) (hi : Intact g.rep) (hf : AllIdna db g) :
    ∃ e, g.expandRanges db = (e, .ok ()) ∧ WF e.rep ∧ e.refs = g.refs ∧
      (∀ k, e.rep.lookup k = (g.rep.lookup k).map C06.noRange) ∧ AllIdna db e := by
  have hok : (g.expandRanges db).2 = .ok () := by
    rw [C06.expand_ranges_ok_iff db g hwf hi]
    intro f l hm
    obtain ⟨hfl, a, ha⟩ := hi.full f l hm
    exact hf [f] _ (ha f (Nat.le_refl _) (Nat.le_of_lt hfl))
  rcases hres : g.expandRanges db with ⟨e, o⟩
  rw [hres] at hok
  simp only at hok; subst hok
  obtain ⟨h1, h2, h3, h4⟩ := expanded hwf hi hres
  refine ⟨e, rfl, h1, h2, h4, ?_⟩
  intro k c hc
  rw [h4] at hc
  cases hd : g.rep.lookup k with
  | none => rw [hd] at hc; simp at hc
  | some d =>
    have := hf k d hd
    unfold IdnaOk at this ⊢
    rw [h3]; exact this

theorem sameChar_noRange {c1 c2 : CharObj} : SameChar (C06.noRange c1) (C06.noRange c2) ↔ SameChar c1 c2 :=
  ⟨fun h => ⟨h.comment, h.tags, h.variants⟩, fun h => ⟨h.comment, h.tags, h.variants⟩⟩

theorem lookup_noRange {e : Option CharObj} {c : CharObj} : e.map C06.noRange = some c ↔ ∃ d, e = some d ∧ c = C06.noRange d := by
  cases e <;> simp [eq_comm]

/-- **C115**, partial: `diff_lgrs` returns and reports exactly the differences in the sets of code points, in comments,
tags and variants of common code points, in references, metadata, dispositions of actions, names of rules and of classes.
Its arguments have no ranges afterwards but the same code points. Missing: contexts and references of code points,
references of variants, actions, rules and classes of the same name which differ (`context_wrong`, `actions_wrong`,
`rules_wrong`). -/
theorem diff_lgrs_partial (ord : Enum) (db1 db2 : UniDb) (d1 d2 : Doc) (s : Bool) (hw1 : WF d1.lgr.rep)
    (hw2 : WF d2.lgr.rep) (hi1 : Intact d1.lgr.rep) (hi2 : Intact d2.lgr.rep) (hd1 : AllIdna db1 d1.lgr)
    (hd2 : AllIdna db2 d2.lgr) :
    ∃ g1 g2 out, diffLgrs ord db1 db2 d1 d2 s = ((g1, g2), .ok out) ∧ DiffReport d1 d2 s out ∧
      (∀ k, g1.rep.lookup k = (d1.lgr.rep.lookup k).map C06.noRange) ∧
      ∀ k, g2.rep.lookup k = (d2.lgr.rep.lookup k).map C06.noRange := by
  obtain ⟨g1, x1, w1, r1, l1, i1⟩ := expands hw1 hi1 hd1
  obtain ⟨g2, x2, w2, r2, l2, i2⟩ := expands hw2 hi2 hd2
  have n1 : ∀ k c, g1.rep.lookup k = some c → c.range = none := by
    intro k c h
    rw [l1, lookup_noRange] at h
    obtain ⟨d, -, rfl⟩ := h; rfl
  have n2 : ∀ k c, g2.rep.lookup k = some c → c.range = none := by
    intro k c h
    rw [l2, lookup_noRange] at h
    obtain ⟨d, -, rfl⟩ := h; rfl
  have m1 := mem_cps w1 n1
  have m2 := mem_cps w2 n2
  have hks : ∀ k, k ∈ ord.seqs ((cps g1).filter (fun k => decide (k ∈ cps g2))) ↔ In g1 k ∧ In g2 k := by
    intro k
    rw [(ord.seqs_perm _).mem_iff, List.mem_filter, decide_eq_true_eq, m1, m2]
  have hnd : (ord.seqs ((cps g1).filter (fun k => decide (k ∈ cps g2)))).Nodup :=
    (ord.seqs_perm _).nodup_iff.2 ((nodup_toSet _).filter _)
  have hloop := charLoop_eq (ord := ord) (s := s) (db1 := db1) (db2 := db2) (g1 := g1) (g2 := g2)
    (ks := ord.seqs ((cps g1).filter (fun k => decide (k ∈ cps g2))))
    (f1 := fun k => (g1.rep.lookup k).getD { cp := [] }) (f2 := fun k => (g2.rep.lookup k).getD { cp := [] })
    (fun k hk => by
      obtain ⟨⟨c, hc⟩, -⟩ := (hks k).1 hk
      rw [getChar_total hc (i1 k c hc), hc]; rfl)
    (fun k hk => by
      obtain ⟨-, c, hc⟩ := (hks k).1 hk
      rw [getChar_total hc (i2 k c hc), hc]; rfl)
  generalize hK : ord.seqs ((cps g1).filter (fun k => decide (k ∈ cps g2))) = K at *
  have hdiff : diffLgrs ord db1 db2 d1 d2 s = ((g1, g2), .ok (text ord d1 d2 g1 g2 s
      (K.flatMap (fun k => block ord s k ((g1.rep.lookup k).getD { cp := [] }) ((g2.rep.lookup k).getD { cp := [] })))
      (K.filter (fun k => decide (s = false ∧ diffChar ord ((g1.rep.lookup k).getD { cp := [] })
        ((g2.rep.lookup k).getD { cp := [] }) s = []))).length)) := by
    unfold diffLgrs
    rw [x1]
    dsimp only
    rw [x2]
    dsimp only
    rw [hK, hloop]
    rfl
  have hB : Blocks ord s (fun k c1 c2 => g1.rep.lookup k = some c1 ∧ g2.rep.lookup k = some c2)
      (K.flatMap (fun k => block ord s k ((g1.rep.lookup k).getD { cp := [] }) ((g2.rep.lookup k).getD { cp := [] }))) := by
    intro o
    rw [List.mem_flatMap]
    constructor
    · rintro ⟨k, hk, ho⟩
      obtain ⟨⟨c1, h1⟩, c2, h2⟩ := (hks k).1 hk
      rw [h1, h2] at ho
      exact ⟨k, c1, c2, ⟨h1, h2⟩, ho⟩
    · rintro ⟨k, c1, c2, ⟨h1, h2⟩, ho⟩
      refine ⟨k, (hks k).2 ⟨⟨c1, h1⟩, c2, h2⟩, ?_⟩
      rw [h1, h2]; exact ho
  have he : ∀ k c1 c2, (g1.rep.lookup k = some c1 ∧ g2.rep.lookup k = some c2) → c1.cp = k :=
    fun k c1 c2 h => lookup_cp h.1
  have hu : ∀ k c1 c2 c1' c2', (g1.rep.lookup k = some c1 ∧ g2.rep.lookup k = some c2) →
      (g1.rep.lookup k = some c1' ∧ g2.rep.lookup k = some c2') → c1 = c1' ∧ c2 = c2' := by
    rintro k c1 c2 c1' c2' ⟨h1, h2⟩ ⟨h3, h4⟩
    rw [h1] at h3; rw [h2] at h4
    cases h3; cases h4
    exact ⟨rfl, rfl⟩
  refine ⟨g1, g2, _, hdiff, ?_, l1, l2⟩
  obtain ⟨t1, t2, t3, t4, t5⟩ := text_names (ord := ord) (d1 := d1) (d2 := d2) (g1 := g1) (g2 := g2)
    (n := (K.filter (fun k => decide (s = false ∧ diffChar ord ((g1.rep.lookup k).getD { cp := [] })
        ((g2.rep.lookup k).getD { cp := [] }) s = []))).length) hB he
  obtain ⟨b1, b2⟩ := text_below (ord := ord) (d1 := d1) (d2 := d2) (g1 := g1) (g2 := g2)
    (n := (K.filter (fun k => decide (s = false ∧ diffChar ord ((g1.rep.lookup k).getD { cp := [] })
        ((g2.rep.lookup k).getD { cp := [] }) s = []))).length) hB he hu
  refine ⟨text_meta hB he, by rw [← r1, ← r2]; exact t1, ⟨?_, ?_, ?_, ?_, ?_, ?_⟩, t2, t3, t4⟩
  · refine t5.congr (fun v => ?_) (fun v => ?_)
    · simp only [m1, In, l1, lookup_noRange]
      constructor
      · rintro ⟨k, ⟨_, d, h, rfl⟩, rfl⟩; exact ⟨k, d, h, rfl⟩
      · rintro ⟨k, d, h, rfl⟩; exact ⟨k, ⟨_, d, h, rfl⟩, rfl⟩
    · simp only [m2, In, l2, lookup_noRange]
      constructor
      · rintro ⟨k, ⟨_, d, h, rfl⟩, rfl⟩; exact ⟨k, d, h, rfl⟩
      · rintro ⟨k, d, h, rfl⟩; exact ⟨k, ⟨_, d, h, rfl⟩, rfl⟩
  · intro k
    rw [b1, ]
    simp only [l1, l2, lookup_noRange]
    constructor
    · rintro ⟨_, _, ⟨⟨a, h1, rfl⟩, b, h2, rfl⟩, h3⟩
      rw [sameChar_noRange] at h3
      exact ⟨a, b, h1, h2, h3⟩
    · rintro ⟨a, b, h1, h2, h3⟩
      exact ⟨_, _, ⟨⟨a, h1, rfl⟩, b, h2, rfl⟩, by rw [sameChar_noRange]; exact h3⟩
  · intro k c1 c2 h1 h2
    exact (b2 k (C06.noRange c1) (C06.noRange c2) ⟨by rw [l1, h1]; rfl, by rw [l2, h2]; rfl⟩).1
  · intro k c1 c2 h1 h2
    exact (b2 k (C06.noRange c1) (C06.noRange c2) ⟨by rw [l1, h1]; rfl, by rw [l2, h2]; rfl⟩).2.1
  · intro k c1 c2 h1 h2
    exact (b2 k (C06.noRange c1) (C06.noRange c2) ⟨by rw [l1, h1]; rfl, by rw [l2, h2]; rfl⟩).2.2
  · intro m
    have hno : Line.identical m ∉ K.flatMap (fun k => block ord s k ((g1.rep.lookup k).getD { cp := [] })
        ((g2.rep.lookup k).getD { cp := [] })) := by
      intro hm
      have := hB.other he hm
      simp at this
    rw [mem_text (by simp), mem_diffMetadata (by simp), mem_diffVersion (by simp), mem_diffDescription (by simp)]
    unfold compareNames
    simp only [hno, mem_compareThings, mem_compareSets, reduceCtorEq, and_false, or_false, false_or, exists_false,
      Line.identical.injEq]
    have hsame : ∀ k c1 c2, d1.lgr.rep.lookup k = some c1 → d2.lgr.rep.lookup k = some c2 →
        (diffChar ord ((g1.rep.lookup k).getD { cp := [] }) ((g2.rep.lookup k).getD { cp := [] }) false = [] ↔
          SameChar c1 c2) := by
      intro k c1 c2 h1 h2
      rw [l1, l2, h1, h2, diffChar_nil_iff]
      exact sameChar_noRange
    have hmem : s = false → ∀ k, k ∈ K.filter (fun k => decide (s = false ∧ diffChar ord
        ((g1.rep.lookup k).getD { cp := [] }) ((g2.rep.lookup k).getD { cp := [] }) s = [])) ↔
        ∃ c1 c2, d1.lgr.rep.lookup k = some c1 ∧ d2.lgr.rep.lookup k = some c2 ∧ SameChar c1 c2 := by
      rintro rfl k
      rw [List.mem_filter, decide_eq_true_eq, hks]
      simp only [In, l1, l2, lookup_noRange, true_and]
      constructor
      · rintro ⟨⟨⟨_, a, h1, rfl⟩, _, b, h2, rfl⟩, h3⟩
        refine ⟨a, b, h1, h2, ?_⟩
        rw [← hsame k a b h1 h2, l1, l2]; exact h3
      · rintro ⟨a, b, h1, h2, h3⟩
        refine ⟨⟨⟨_, a, h1, rfl⟩, _, b, h2, rfl⟩, ?_⟩
        rw [← hsame k a b h1 h2, l1, l2] at h3; exact h3
    have hF := hnd.filter (fun k => decide (s = false ∧ diffChar ord
        ((g1.rep.lookup k).getD { cp := [] }) ((g2.rep.lookup k).getD { cp := [] }) s = []))
    generalize K.filter (fun k => decide (s = false ∧ diffChar ord
        ((g1.rep.lookup k).getD { cp := [] }) ((g2.rep.lookup k).getD { cp := [] }) s = [])) = F at *
    constructor
    · rintro ⟨h1, h2, rfl⟩
      exact ⟨h1, h2, F, hF, rfl, hmem h1⟩
    · rintro ⟨h1, h2, ks, h3, rfl, h4⟩
      have : ks.length = F.length :=
        ((List.perm_ext_iff_of_nodup h3 hF).2 (fun k => by rw [h4, hmem h1])).length_eq
      exact ⟨h1, this ▸ h2, this⟩

/-! ## Differences that are not reported -/

/-- No difference is reported. -/
def Silent (out : List Line) : Prop :=
  (∀ at_ n a b, .differ at_ n a b ∉ out) ∧ (∀ at_ n a b, .sets at_ n a b ∉ out) ∧ ∀ k, .codePoint k ∉ out

/-- When no difference is reported, the context rules of the code points are the same. -/
def SameContexts : Prop :=
  ∀ (ord : Enum) (d1 d2 : Doc), WF d1.lgr.rep → WF d2.lgr.rep → Intact d1.lgr.rep → Intact d2.lgr.rep →
    ∀ x out, diffLgrs ord none none d1 d2 false = (x, .ok out) → Silent out →
    ∀ k c1 c2, d1.lgr.rep.lookup k = some c1 → d2.lgr.rep.lookup k = some c2 →
      c1.attrs.whenR = c2.attrs.whenR ∧ c1.attrs.notWhenR = c2.attrs.notWhenR

/-- When no difference is reported, the actions are the same. -/
def SameActions : Prop :=
  ∀ (ord : Enum) (d1 d2 : Doc), WF d1.lgr.rep → WF d2.lgr.rep → Intact d1.lgr.rep → Intact d2.lgr.rep →
    ∀ x out, diffLgrs ord none none d1 d2 false = (x, .ok out) → Silent out → d1.actions = d2.actions

/-- When no difference is reported, the rules are the same. -/
def SameRules : Prop :=
  ∀ (ord : Enum) (d1 d2 : Doc), WF d1.lgr.rep → WF d2.lgr.rep → Intact d1.lgr.rep → Intact d2.lgr.rep →
    ∀ x out, diffLgrs ord none none d1 d2 false = (x, .ok out) → Silent out → d1.rules = d2.rules

/-- Sets in order of insertion. -/
def inserted : Enum := ⟨id, id, id, fun _ => .refl _, fun _ => .refl _, fun _ => .refl _⟩

/-- One code point, with a context rule or not. -/
def oneChar (w : Option String) : LGR := (LGR.addCp none {} (.seq [97]) { whenR := w }).1

theorem oneChar_ok (w : Option String) : WF (oneChar w).rep ∧ Intact (oneChar w).rep := by
  refine ⟨wf_addCp wf_empty _ _, ?_⟩
  have hr : (oneChar w).rep.ranges = [] := by cases w <;> rfl
  refine ⟨by simp [hr], ?_, by simp [hr]⟩
  intro k c p h1 h2
  have h := (addCp_effect {} wf_empty [97] { whenR := w } rfl (by cases w <;> rfl)).2.2.2 k
  have h1' : (LGR.addCp none {} (.seq [97]) { whenR := w }).1.rep.lookup k = some c := h1
  rw [h] at h1'
  split at h1'
  · cases h1'; cases h2
  · have : (({} : LGR).rep.lookup k) = none := by cases k <;> rfl
    rw [this] at h1'; cases h1'

/-- What is written for LGRs without metadata. -/
def nothing (n : Nat) : List Line :=
  [.heading "Compare Metadata", .heading "Compare Version:", .no true "version", .no false "version",
    .heading "Compare Description:", .no true "description", .no false "description", .heading "Compare repertoire",
    .heading "Compare common code points in repertoire"] ++ (if 0 < n then [.identical n] else []) ++
    [.heading "Compare WLE"]

theorem nothing_silent (n : Nat) : Silent (nothing n) := by
  unfold Silent nothing
  refine ⟨fun at_ nm a b => ?_, fun at_ nm a b => ?_, fun k => ?_⟩ <;> split <;> simp

/-- **C115** is violated: `a` is allowed everywhere in the first LGR, in a context in the second one; it is counted as
identical. -/
theorem context_wrong : ¬ SameContexts := by
  intro h
  have := h inserted { lgr := oneChar none } { lgr := oneChar (some "R") } (oneChar_ok _).1 (oneChar_ok _).1
    (oneChar_ok _).2 (oneChar_ok _).2 (oneChar none, oneChar (some "R")) (nothing 1) (by decide +kernel)
    (nothing_silent _) [97] _ _ (by rfl) (by rfl)
  exact absurd this.1 (by decide)

/-- **C115** is violated: actions with the same disposition are not compared. -/
theorem actions_wrong : ¬ SameActions := by
  intro h
  have := h inserted { actions := [{ disp := "blocked", anyVariant := ["x"] }] }
    { actions := [{ disp := "blocked", matchR := some "R" }] } wf_empty wf_empty
    ⟨by simp, by intro k c p hk; exact absurd hk (by cases k <;> simp [Repertoire.lookup, bucket, dget]), by simp⟩
    ⟨by simp, by intro k c p hk; exact absurd hk (by cases k <;> simp [Repertoire.lookup, bucket, dget]), by simp⟩
    ({}, {}) (nothing 0) (by decide +kernel) (nothing_silent _)
  exact absurd this (by decide)

/-- **C115** is violated: rules with the same name are not compared. -/
theorem rules_wrong : ¬ SameRules := by
  intro h
  have := h inserted { rules := [("R", "<start/>")] } { rules := [("R", "<end/>")] } wf_empty wf_empty
    ⟨by simp, by intro k c p hk; exact absurd hk (by cases k <;> simp [Repertoire.lookup, bucket, dget]), by simp⟩
    ⟨by simp, by intro k c p hk; exact absurd hk (by cases k <;> simp [Repertoire.lookup, bucket, dget]), by simp⟩
    ({}, {}) (nothing 0) (by decide +kernel) (nothing_silent _)
  exact absurd this (by decide)

/-- The hypotheses are met: `diff_lgrs` on two LGRs which have `a`, in the second one in a context. -/
example : ∃ g1 g2 out, diffLgrs inserted none none { lgr := oneChar none } { lgr := oneChar (some "R") } true =
      ((g1, g2), .ok out) ∧ .codePoint [97] ∈ out := by
  obtain ⟨g1, g2, out, h, hr, -⟩ := diff_lgrs_partial inserted none none { lgr := oneChar none }
    { lgr := oneChar (some "R") } true (oneChar_ok _).1 (oneChar_ok _).1 (oneChar_ok _).2 (oneChar_ok _).2
    (fun _ _ _ _ _ hv => by cases hv) (fun _ _ _ _ _ hv => by cases hv)
  exact ⟨g1, g2, out, h, (hr.rep.codePoint [97]).2 ⟨_, _, by rfl, by rfl, .inl rfl⟩⟩

end Lgr.Props.C115
