import Verif.Props.DocVariantsAll
import Verif.Props.Index

/-!
# C154: the index label of a label under a document
-/

namespace Lgr.Props.C154
open Lgr Xml Text Repertoire LGR RulesXml C103 DocXml C105 C106 C107 C152 C153
open C101 hiding before after
open C111 hiding VarDisp OwnDisp varDisp_of own_of

/-! ## Specification -/

/-- What may stand for the sequence `k` of the item, between `pfx` and `rest`: the sequence, or a variant of the item in the context
which the variant asks for. -/
def Instead (db : String → Except Err CpSet) (is : List C105.Item) (es : List Node) (pfx : Seq) (j : C105.Item) (k rest : Seq) : Set Seq :=
  { x | x = k ∨ ∃ v ∈ j.vars, v.cp = x ∧ InContext db is es (pfx ++ v.cp ++ rest) v.whenR v.notWhenR pfx.length v.cp.length }

/-- The least which may stand for each of the sequences, one after the other. -/
inductive Lowest (db : String → Except Err CpSet) (is : List C105.Item) (es : List Node) : Seq → List (C105.Item × Seq) → Seq → Prop
  | nil (pfx : Seq) : Lowest db is es pfx [] []
  | cons {pfx k m t : Seq} {j : C105.Item} {ks : List (C105.Item × Seq)} :
      IsLeast (Instead db is es pfx j k (ks.flatMap Prod.snd)) m → Lowest db is es (pfx ++ k) ks t →
      Lowest db is es pfx ((j, k) :: ks) (m ++ t)

/-- The labels obtained in this way, over all ways to write the label as sequences of items in context. -/
def Indexes (db : String → Except Err CpSet) (is : List C105.Item) (es : List Node) (label : Seq) : Set Seq :=
  { i | ∃ ks, Made db is es label ks ∧ Lowest db is es [] ks i }

/-! ## Entries and items -/

/-- The entry of the LGR and the sequence of the item. -/
def Pair (is : List C105.Item) (r : Repertoire) (c : CharObj) (p : C105.Item × Seq) : Prop :=
  c.cp = p.2 ∧ p.1 ∈ is ∧ r.getChar c.cp = .ok c ∧ Holds p.1 c.cp c

theorem pair_text {is : List C105.Item} {r : Repertoire} {cs : List CharObj} {ks : List (C105.Item × Seq)}
    (h : List.Forall₂ (Pair is r) cs ks) : cs.flatMap CharObj.cp = ks.flatMap Prod.snd := by
  induction h with
  | nil => rfl
  | cons h1 _ ih => rw [List.flatMap_cons, List.flatMap_cons, ih, h1.1]

theorem pairs_left {R : Reader} {is : List C105.Item} {es : List Node} {g : Loaded} (S : Setting R is es g) :
    ∀ (cs : List CharObj), (∀ c ∈ cs, g.lgr.rep.getChar c.cp = .ok c) → ∃ ks, List.Forall₂ (Pair is g.lgr.rep) cs ks
  | [], _ => ⟨[], .nil⟩
  | c :: cs, h => by
    obtain ⟨ks, hks⟩ := pairs_left S cs (fun d hd => h d (List.mem_cons_of_mem _ hd))
    have hg := h c List.mem_cons_self
    obtain ⟨i, hi, hh⟩ := S.hrep _ _ (getChar_ok.1 hg)
    exact ⟨(i, c.cp) :: ks, .cons ⟨rfl, hi, hg, hh⟩ hks⟩

theorem pairs_right {R : Reader} {is : List C105.Item} {es : List Node} {g : Loaded} (S : Setting R is es g) :
    ∀ (ks : List (C105.Item × Seq)), (∀ p ∈ ks, p.1 ∈ is ∧ p.1.Has p.2) → ∃ cs, List.Forall₂ (Pair is g.lgr.rep) cs ks
  | [], _ => ⟨[], .nil⟩
  | (j, k) :: ks, h => by
    obtain ⟨cs, hcs⟩ := pairs_right S ks (fun p hp => h p (List.mem_cons_of_mem _ hp))
    obtain ⟨hj, hk⟩ := h (j, k) List.mem_cons_self
    obtain ⟨c, hc, hg, hh⟩ := stored_of S hj hk
    exact ⟨c :: cs, .cons ⟨hc, hj, hg, hh⟩ hcs⟩

theorem made_iff {R : Reader} {is : List C105.Item} {es : List Node} {g : Loaded} (S : Setting R is es g)
    {env : Env} (hE : Faithful R.props g.rules.rs env) {label : Seq} (hp : C106.Plain label) {cs : List CharObj}
    {ks : List (C105.Item × Seq)} (h : List.Forall₂ (Pair is g.lgr.rep) cs ks) :
    Segmentation env g.lgr.rep label cs ↔ Made R.props is es label ks := by
  have key : label = cs.flatMap CharObj.cp → ∀ {pre c post pre' p post'}, cs = pre ++ c :: post → ks = pre' ++ p :: post' →
      List.Forall₂ (Pair is g.lgr.rep) pre pre' → Pair is g.lgr.rep c p →
      (CharCtx env label (pre.flatMap CharObj.cp).length c ↔
        InContext R.props is es label p.1.attrs.whenR p.1.attrs.notWhenR (pre'.flatMap Prod.snd).length p.2.length) := by
    intro hl pre c post pre' p post' e1 _ k1 k2
    unfold CharCtx
    rw [← pair_text k1, ← k2.1, k2.2.2.2.2.2.1]
    refine context_iff S.common hE hp S.solid (S.ready _ k2.2.1).1 (S.fine _ k2.2.1).1.1 ?_ ?_
    · rw [hl, e1]; simp
    · rw [hl, e1, List.flatMap_append, List.drop_left]
      exact List.prefix_append _ _
  constructor
  · intro hs
    refine ⟨by rw [← pair_text h]; exact hs.concat, ?_, ?_⟩
    · intro p hp'
      obtain ⟨pre, post, e⟩ := List.append_of_mem hp'
      have h' := h
      rw [e] at h'
      obtain ⟨_, c, _, -, -, k2, -⟩ := forall₂_split_right h'
      exact ⟨k2.2.1, by rw [← k2.1]; exact k2.2.2.2.1⟩
    · intro pre p post e
      have h' := h
      rw [e] at h'
      obtain ⟨pre', c, post', e', k1, k2, -⟩ := forall₂_split_right h'
      exact (key hs.concat.symm e' e k1 k2).1 (hs.context pre' c post' e')
  · intro hm
    have hl : label = cs.flatMap CharObj.cp := by rw [pair_text h]; exact hm.concat.symm
    refine ⟨hl.symm, ?_, ?_⟩
    · intro c hc
      obtain ⟨pre, post, e⟩ := List.append_of_mem hc
      have h' := h
      rw [e] at h'
      obtain ⟨_, p, _, -, -, k2, -⟩ := forall₂_split_left h'
      exact k2.2.2.1
    · intro pre c post e
      have h' := h
      rw [e] at h'
      obtain ⟨pre', p, post', e', k1, k2, -⟩ := forall₂_split_left h'
      exact (key hl e e' k1 k2).2 (hm.context pre' p post' e')

/-- One sequence of the label is replaced, the others are kept. -/
theorem room_one {is : List C105.Item} {label : Seq} (hr : Room is label) {done ks : List (C105.Item × Seq)} {j : C105.Item} {k : Seq}
    (hc : (done ++ (j, k) :: ks).flatMap Prod.snd = label) (hh : ∀ p ∈ done ++ (j, k) :: ks, p.1 ∈ is ∧ p.1.Has p.2) {v : Variant}
    (hv : v ∈ j.vars) : C106.Plain (done.flatMap Prod.snd ++ v.cp ++ ks.flatMap Prod.snd) := by
  have := hr (done.map (fun p => ⟨p.1, p.2, none⟩) ++ ⟨j, k, some v⟩ :: ks.map (fun p => ⟨p.1, p.2, none⟩)) ?_ ?_
  · have e : ∀ l : List (C105.Item × Seq), after (l.map (fun p => (⟨p.1, p.2, none⟩ : Use))) = l.flatMap Prod.snd := by
      intro l
      unfold after
      rw [List.flatMap_map]
      rfl
    have e2 := e done
    have e3 := e ks
    unfold after at this e2 e3
    rw [List.flatMap_append, List.flatMap_cons, e2, e3] at this
    rw [List.append_assoc]
    exact this
  · rw [← hc]
    unfold before
    rw [List.flatMap_append, List.flatMap_cons, List.flatMap_map, List.flatMap_map, List.flatMap_append, List.flatMap_cons]
  · intro u hu
    rcases List.mem_append.1 hu with hu | hu
    · obtain ⟨p, hp, rfl⟩ := List.mem_map.1 hu
      have := hh p (List.mem_append_left _ hp)
      exact ⟨this.1, this.2, fun v hv => by cases hv⟩
    · rcases List.mem_cons.1 hu with rfl | hu
      · have := hh (j, k) (by simp)
        refine ⟨this.1, this.2, fun w hw => ?_⟩
        cases hw
        exact hv
      · obtain ⟨p, hp, rfl⟩ := List.mem_map.1 hu
        have := hh p (by simp [hp])
        exact ⟨this.1, this.2, fun v hv => by cases hv⟩

theorem instead_eq {R : Reader} {is : List C105.Item} {es : List Node} {g : Loaded} (S : Setting R is es g)
    {env : Env} (hE : Faithful R.props g.rules.rs env) {c : CharObj} {p : C105.Item × Seq} (k : Pair is g.lgr.rep c p) {pfx rest : Seq}
    (hpl : ∀ v ∈ p.1.vars, C106.Plain (pfx ++ v.cp ++ rest)) :
    Choices env pfx c rest = Instead R.props is es pfx p.1 p.2 rest := by
  ext x
  unfold Choices Instead
  simp only [Set.mem_setOf_eq]
  rw [k.1]
  refine or_congr Iff.rfl (exists_congr fun v => ?_)
  rw [k.2.2.2.2.2.2.2]
  refine and_congr_right fun hv => and_congr_right fun _ => ?_
  exact varCtx_iff S hE k.2.1 hv (hpl v hv)

theorem lowest_iff {R : Reader} {is : List C105.Item} {es : List Node} {g : Loaded} (S : Setting R is es g)
    {env : Env} (hE : Faithful R.props g.rules.rs env) {label : Seq} (hr : Room is label) {cs : List CharObj}
    {ks : List (C105.Item × Seq)} (h : List.Forall₂ (Pair is g.lgr.rep) cs ks) :
    ∀ {done : List (C105.Item × Seq)}, (done ++ ks).flatMap Prod.snd = label → (∀ p ∈ done ++ ks, p.1 ∈ is ∧ p.1.Has p.2) → ∀ i,
      (PartIndex env (done.flatMap Prod.snd) cs i ↔ Lowest R.props is es (done.flatMap Prod.snd) ks i) := by
  induction h with
  | nil =>
    intro done _ _ i
    constructor
    · intro h; cases h; exact .nil _
    · intro h; cases h; exact .nil _
  | @cons c p cs ks hp hps ih =>
    intro done hc hh i
    obtain ⟨j, k⟩ := p
    have hpl : ∀ v ∈ j.vars, C106.Plain (done.flatMap Prod.snd ++ v.cp ++ ks.flatMap Prod.snd) := fun v hv => room_one hr hc hh hv
    have hi := instead_eq S hE hp hpl
    have ih' := fun t => ih (done := done ++ [(j, k)]) (by rw [List.append_assoc]; exact hc) (by rw [List.append_assoc]; exact hh) t
    have e : (done ++ [(j, k)]).flatMap Prod.snd = done.flatMap Prod.snd ++ k := by simp
    rw [e] at ih'
    have hk : c.cp = k := hp.1
    constructor
    · intro hx
      cases hx with
      | cons h1 h2 =>
        rw [pair_text hps, hi] at h1
        rw [hk] at h2
        exact .cons h1 ((ih' _).1 h2)
    · intro hx
      cases hx with
      | cons h1 h2 =>
        refine .cons ?_ (by rw [hk]; exact (ih' _).2 h2)
        rw [pair_text hps, hi]
        exact h1

theorem indexes_eq {R : Reader} {is : List C105.Item} {es : List Node} {g : Loaded} (S : Setting R is es g)
    {env : Env} (hE : Faithful R.props g.rules.rs env) {label : Seq} (hp : C106.Plain label) (hr : Room is label) :
    C17.Indexes env g.lgr.rep label = Indexes R.props is es label := by
  ext i
  constructor
  · rintro ⟨cs, hs, hi⟩
    obtain ⟨ks, hk⟩ := pairs_left S cs hs.stored
    have hm := (made_iff S hE hp hk).1 hs
    exact ⟨ks, hm, (lowest_iff S hE hr hk (done := []) hm.concat hm.has i).1 hi⟩
  · rintro ⟨ks, hm, hi⟩
    obtain ⟨cs, hk⟩ := pairs_right S ks hm.has
    exact ⟨cs, (made_iff S hE hp hk).2 hm, (lowest_iff S hE hr hk (done := []) hm.concat hm.has i).2 hi⟩

/-- **C154** Under the LGR read from a document, `generate_index_label` returns for a label which passes the preliminary test (C152) the
least of the labels obtained by writing it as sequences of items in context and taking for each the least of the sequence and the
variants of its item in context; for other labels it raises `NotInLGR` with a code point of the label. -/
theorem document_index {R : Reader} {cs : Rfc7940.Results} {d : Doc} {g : Loaded} (h : Clear R cs d g)
    {is : List C105.Item} (hm : Means d.data is) (hready : Ready (d.rules.getD []) is)
    (hso : C106.Inhabited R.props is (d.rules.getD [])) {env : FullEnv} (hE : Faithful R.props g.rules.rs env.toEnv) {label : Seq}
    (hp : C106.Plain label) (hne : label ≠ []) (hroom : Room is label) :
    (Passes R.props is (d.rules.getD []) label →
      ∃ i, env.indexLabel g.lgr.rep label 0 = .ok i ∧ IsLeast (Indexes R.props is (d.rules.getD []) label) i) ∧
    (¬ Passes R.props is (d.rules.getD []) label → ∃ x ∈ label, env.indexLabel g.lgr.rep label 0 = .error (.notInLGR [x])) := by
  have S := setting_of h hm hready hso
  have hwf := S.common.state.1
  have hdef := rules_defined S.common hE hready S.hrep
  have hacc := passes_iff h hm hready hso hE hp
  constructor
  · intro hpass
    obtain ⟨p, hpre, hok⟩ := hacc.2 hpass
    obtain ⟨i, h1, h2⟩ := C17.index_of_accepted hwf hdef hne hpre hok
    rw [indexes_eq S hE hp hroom] at h2
    exact ⟨i, h1, h2⟩
  · intro hno
    obtain ⟨p, hpre⟩ := prelim_defined hwf hdef label
    have hok : p.ok = false := by
      by_contra hc
      exact hno (hacc.1 ⟨p, hpre, by simpa using hc⟩)
    obtain ⟨x, -, -, -, hx, he⟩ := C17.index_of_rejected hwf hne hpre hok 0
    exact ⟨x, hx, he⟩

/-- So two labels are found to collide exactly if they pass and the least of these labels is the same. -/
theorem document_collides_iff {R : Reader} {cs : Rfc7940.Results} {d : Doc} {g : Loaded} (h : Clear R cs d g)
    {is : List C105.Item} (hm : Means d.data is) (hready : Ready (d.rules.getD []) is)
    (hso : C106.Inhabited R.props is (d.rules.getD [])) {env : FullEnv} (hE : Faithful R.props g.rules.rs env.toEnv) {l m : Seq}
    (hl : C106.Plain l) (hl0 : l ≠ []) (hlr : Room is l) (hm' : C106.Plain m) (hm0 : m ≠ []) (hmr : Room is m) :
    (∃ i, env.indexLabel g.lgr.rep l 0 = .ok i ∧ env.indexLabel g.lgr.rep m 0 = .ok i) ↔
      Passes R.props is (d.rules.getD []) l ∧ Passes R.props is (d.rules.getD []) m ∧
        ∃ i, IsLeast (Indexes R.props is (d.rules.getD []) l) i ∧ IsLeast (Indexes R.props is (d.rules.getD []) m) i := by
  obtain ⟨a1, a2⟩ := document_index h hm hready hso hE hl hl0 hlr
  obtain ⟨b1, b2⟩ := document_index h hm hready hso hE hm' hm0 hmr
  constructor
  · rintro ⟨i, h1, h2⟩
    have p1 : Passes R.props is (d.rules.getD []) l := by
      by_contra hc
      obtain ⟨x, -, hx⟩ := a2 hc
      rw [h1] at hx
      cases hx
    have p2 : Passes R.props is (d.rules.getD []) m := by
      by_contra hc
      obtain ⟨x, -, hx⟩ := b2 hc
      rw [h2] at hx
      cases hx
    obtain ⟨i1, e1, l1⟩ := a1 p1
    obtain ⟨i2, e2, l2⟩ := b1 p2
    rw [h1] at e1
    rw [h2] at e2
    cases e1
    cases e2
    exact ⟨p1, p2, i, l1, l2⟩
  · rintro ⟨p1, p2, i, l1, l2⟩
    obtain ⟨i1, e1, k1⟩ := a1 p1
    obtain ⟨i2, e2, k2⟩ := b1 p2
    rw [k1.unique l1] at e1
    rw [k2.unique l2] at e2
    exact ⟨i, e1, e2⟩

/-! ## Example: the index label is not that of the longest sequences -/

/-- `c` with the variant `b`, the sequence `cd` with the variant `e`, and `d`. -/
def doc6 : Doc :=
  { metaE := some []
    data := [{ tag := "char", attrs := [("cp", "63")], vars := [[("cp", "62")]] },
      { tag := "char", attrs := [("cp", "63 64")], vars := [[("cp", "65")]] }, { tag := "char", attrs := [("cp", "64")] }] }

def itemC6 : C105.Item := .char [0x63] {} [{ cp := [0x62] }]
def itemS6 : C105.Item := .char [0x63, 0x64] {} [{ cp := [0x65] }]
def itemD6 : C105.Item := .char [0x64] {} []
def items6 : List C105.Item := [itemC6, itemS6, itemD6]

theorem doc6_means : Means doc6.data items6 := by
  refine .item (.char rfl ?_ ⟨rfl, rfl, rfl, ?_, ?_⟩ (.cons ⟨?_, rfl, rfl, rfl, rfl, ?_⟩ .nil))
    (.item (.char rfl ?_ ⟨rfl, rfl, rfl, ?_, ?_⟩ (.cons ⟨?_, rfl, rfl, rfl, rfl, ?_⟩ .nil))
    (.item (.char rfl ?_ ⟨rfl, rfl, rfl, ?_, ?_⟩ .nil) .nil))
  all_goals first
    | exact spells_iff.2 (by decide +kernel)
    | exact (listed_iff (by decide +kernel)).2 (by decide +kernel)

theorem doc6_reads : (match parseDoc reader1 [] doc6 with
    | (cs, .ok (some _)) => decide (dget cs "parse_xml" ≠ some false)
    | _ => false) = true := by decide +kernel

theorem doc6_clear : ∃ g, Clear reader1 [] doc6 g := by
  have h := doc6_reads
  rcases hp : parseDoc reader1 [] doc6 with ⟨cs, o⟩
  rw [hp] at h
  match o, h with
  | .ok (some g), h =>
    exact ⟨g, rfl, ⟨cs, hp, by simpa using h⟩, by decide +kernel, ⟨List.nodup_nil, List.nodup_nil, by intro n hn; cases hn⟩,
      by intro e he; cases he⟩

theorem ready6 : Ready [] items6 := by
  intro i hi
  simp only [items6, List.mem_cons, List.not_mem_nil, or_false] at hi
  rcases hi with rfl | rfl | rfl <;> simp [itemC6, itemS6, itemD6, C105.Item.attrs, C105.Item.vars]

theorem room6 {label : Seq} (hp : C106.Plain label) : Room items6 label := by
  refine room_of_short hp fun i hi k hk v hv => ?_
  simp only [items6, List.mem_cons, List.not_mem_nil, or_false] at hi
  rcases hi with rfl | rfl | rfl
  · simp only [itemC6, C105.Item.vars, C105.Item.Has, List.mem_cons, List.not_mem_nil, or_false] at hv hk
    subst hv hk
    exact ⟨by decide, by decide⟩
  · simp only [itemS6, C105.Item.vars, C105.Item.Has, List.mem_cons, List.not_mem_nil, or_false] at hv hk
    subst hv hk
    exact ⟨by decide, by decide⟩
  · simp [itemD6, C105.Item.vars] at hv

theorem free6 {db : String → Except Err CpSet} {label : Seq} {o n : Nat} : InContext db items6 [] label none none o n :=
  ⟨fun r hr => (by cases hr), fun r hr => (by cases hr)⟩

theorem made6 {db : String → Except Err CpSet} {ks : List (C105.Item × Seq)} (h : Made db items6 [] [0x63, 0x64] ks) :
    ks = [(itemC6, [0x63]), (itemD6, [0x64])] ∨ ks = [(itemS6, [0x63, 0x64])] := by
  have pick : ∀ p ∈ ks, p = (itemC6, [0x63]) ∨ p = (itemS6, [0x63, 0x64]) ∨ p = (itemD6, [0x64]) := by
    intro p hp
    obtain ⟨j, k⟩ := p
    obtain ⟨h1, h2⟩ := h.has _ hp
    simp only [items6, List.mem_cons, List.not_mem_nil, or_false] at h1 h2
    rcases h1 with rfl | rfl | rfl
    · exact .inl (by rw [show k = [0x63] from h2])
    · exact .inr (.inl (by rw [show k = [0x63, 0x64] from h2]))
    · exact .inr (.inr (by rw [show k = [0x64] from h2]))
  have hc := h.concat
  match ks, hc, pick with
  | [], hc, _ => cases hc
  | p :: ks, hc, pick =>
    rcases pick p (by simp) with rfl | rfl | rfl
    · left
      match ks, hc, pick with
      | [], hc, _ => cases hc
      | q :: ks, hc, pick =>
        rcases pick q (by simp) with rfl | rfl | rfl
        · simp at hc
        · simp at hc
        · match ks, hc, pick with
          | [], _, _ => rfl
          | x :: ks, hc, pick =>
            rcases pick x (by simp) with rfl | rfl | rfl <;> simp at hc
    · right
      match ks, hc, pick with
      | [], _, _ => rfl
      | x :: ks, hc, pick =>
        rcases pick x (by simp) with rfl | rfl | rfl <;> simp at hc
    · simp at hc

theorem least6 {db : String → Except Err CpSet} : IsLeast (Indexes db items6 [] [0x63, 0x64]) [0x62, 0x64] := by
  have eC : Instead db items6 [] [] itemC6 [0x63] [0x64] = {[0x63], [0x62]} := by
    ext x
    simp only [Instead, itemC6, C105.Item.vars, List.mem_singleton, exists_eq_left, Set.mem_setOf_eq, Set.mem_insert_iff, Set.mem_singleton_iff]
    exact or_congr Iff.rfl ⟨fun h => h.1.symm, fun h => ⟨h.symm, free6⟩⟩
  have eD : Instead db items6 [] [0x63] itemD6 [0x64] [] = {[0x64]} := by
    ext x
    simp [Instead, itemD6, C105.Item.vars]
  have eS : Instead db items6 [] [] itemS6 [0x63, 0x64] [] = {[0x63, 0x64], [0x65]} := by
    ext x
    simp only [Instead, itemS6, C105.Item.vars, List.mem_singleton, exists_eq_left, Set.mem_setOf_eq, Set.mem_insert_iff, Set.mem_singleton_iff]
    exact or_congr Iff.rfl ⟨fun h => h.1.symm, fun h => ⟨h.symm, free6⟩⟩
  have lC : IsLeast ({[0x63], [0x62]} : Set Seq) [0x62] := by
    refine ⟨by simp, ?_⟩
    rintro x (rfl | rfl) <;> decide
  have lD : IsLeast ({[0x64]} : Set Seq) [0x64] := by
    refine ⟨by simp, ?_⟩
    rintro x rfl
    exact le_refl _
  have lS : IsLeast ({[0x63, 0x64], [0x65]} : Set Seq) [0x63, 0x64] := by
    refine ⟨by simp, ?_⟩
    rintro x (rfl | rfl) <;> decide
  constructor
  · refine ⟨[(itemC6, [0x63]), (itemD6, [0x64])], ⟨rfl, ?_, ?_⟩, ?_⟩
    · intro p hp
      simp only [List.mem_cons, List.not_mem_nil, or_false] at hp
      rcases hp with rfl | rfl
      · exact ⟨by simp [items6], rfl⟩
      · exact ⟨by simp [items6], rfl⟩
    · intro pre p post he
      match pre, he with
      | [], he => cases he; exact free6
      | [_], he => cases he; exact free6
      | _ :: _ :: pre, he => simp at he
    · exact .cons (m := [0x62]) (t := [0x64]) (by rw [show [(itemD6, [0x64])].flatMap Prod.snd = [0x64] from rfl, eC]; exact lC)
        (.cons (m := [0x64]) (t := []) (by rw [show ([] ++ [0x63] : Seq) = [0x63] from rfl, show List.flatMap Prod.snd ([] : List (C105.Item × Seq)) = [] from rfl, eD]; exact lD) (.nil _))
  · rintro i ⟨ks, hm, hi⟩
    rcases made6 hm with rfl | rfl
    · cases hi with
      | cons h1 h2 =>
        cases h2 with
        | cons h3 h4 =>
          cases h4
          rw [show [(itemD6, [0x64])].flatMap Prod.snd = [0x64] from rfl, eC] at h1
          rw [show ([] ++ [0x63] : Seq) = [0x63] from rfl, show List.flatMap Prod.snd ([] : List (C105.Item × Seq)) = [] from rfl, eD] at h3
          rw [h1.unique lC, h3.unique lD]
          exact le_refl _
    · cases hi with
      | cons h1 h2 =>
        cases h2
        rw [show List.flatMap Prod.snd ([] : List (C105.Item × Seq)) = [] from rfl, eS] at h1
        rw [h1.unique lS]
        decide

theorem cut6 {db : String → Except Err CpSet} : Passes db items6 [] [0x63, 0x64] := by
  refine ⟨[[0x63, 0x64]], .step (i := itemS6) ⟨by simp [items6], rfl, ⟨[], rfl⟩, free6⟩ ?_ (.done 2)⟩
  rintro j k ⟨h1, h2, -⟩
  simp only [items6, List.mem_cons, List.not_mem_nil, or_false] at h1
  rcases h1 with rfl | rfl | rfl
  · rw [show k = [0x63] from h2]; decide
  · rw [show k = [0x63, 0x64] from h2]
  · rw [show k = [0x64] from h2]; decide

/-- All hypotheses of `document_index` are met; `cd` is read as one sequence, but its index label `bd` is that of `c` and `d`. -/
example : ∃ g, Clear reader1 [] doc6 g ∧ Means doc6.data items6 ∧ DocCut reader1.props items6 [] [0x63, 0x64] 0 [[0x63, 0x64]] 2 ∧
    (∃ env : FullEnv, FullFaithful reader1.props g.rules.rs env) ∧
    ∀ env : FullEnv, FullFaithful reader1.props g.rules.rs env → env.indexLabel g.lgr.rep [0x63, 0x64] 0 = .ok [0x62, 0x64] := by
  obtain ⟨g, hg⟩ := doc6_clear
  have hp : C106.Plain [0x63, 0x64] := by unfold C106.Plain; decide
  obtain ⟨env, -, he⟩ := full_faithful_exists (common_of hg doc6_means).1 (fun _ => "Latin")
  refine ⟨g, hg, doc6_means, ?_, ⟨env, he⟩, fun env he => ?_⟩
  · refine .step (i := itemS6) ⟨by simp [items6], rfl, ⟨[], rfl⟩, free6⟩ ?_ (.done 2)
    rintro j k ⟨h1, h2, -⟩
    simp only [items6, List.mem_cons, List.not_mem_nil, or_false] at h1
    rcases h1 with rfl | rfl | rfl
    · rw [show k = [0x63] from h2]; decide
    · rw [show k = [0x63, 0x64] from h2]
    · rw [show k = [0x64] from h2]; decide
  · obtain ⟨i, h1, h2⟩ := (document_index hg doc6_means ready6 (by intro w _ e he; cases he) he.1 hp (by simp) (room6 hp)).1 cut6
    rw [h1, h2.unique least6]

end Lgr.Props.C154
