import Verif.Props.DocLabels
import Verif.Props.DocLabelsEx

/-!
# C152: the labels which pass the preliminary test, exactly
-/

namespace Lgr.Props.C152
open Lgr Xml Text Repertoire LGR RulesXml C101 C103 DocXml C105 C106

/-! ## Specification -/

/-- `c` is an entry which stands at this offset of the label, in valid context. -/
def Stands (env : Env) (r : Repertoire) (label : Seq) (o : Nat) (c : CharObj) : Prop :=
  MatchesAt r label o c ∧ CharCtx env label o c

/-- `cs` is what one gets by taking from the label, from offset `o` to `e`, the longest entry which stands there, again and
again. -/
inductive Cut (env : Env) (r : Repertoire) (label : Seq) : Nat → List CharObj → Nat → Prop
  | done (o : Nat) : Cut env r label o [] o
  | step {o e : Nat} {c : CharObj} {cs : List CharObj} : Stands env r label o c →
      (∀ d, Stands env r label o d → d.len ≤ c.len) → Cut env r label (o + c.len) cs e → Cut env r label o (c :: cs) e

/-! ## Cutting -/

theorem stands_le {env : Env} {r : Repertoire} {label : Seq} {o : Nat} {c : CharObj} (h : Stands env r label o c) :
    0 < c.len ∧ o + c.len ≤ label.length := by
  have h1 : c.cp ≠ [] := getChar_ne_nil h.1.1
  have h2 := h.1.2.length_le
  rw [List.length_drop] at h2
  have : 0 < c.cp.length := List.length_pos_iff.2 h1
  unfold CharObj.len
  omega

theorem stands_same {env : Env} {r : Repertoire} {label : Seq} {o : Nat} {c d : CharObj} (h : Stands env r label o c)
    (h' : Stands env r label o d) (hl : c.len = d.len) : c = d := by
  have : c.cp = d.cp := by
    rcases List.prefix_or_prefix_of_prefix h.1.2 h'.1.2 with hp | hp
    · exact hp.eq_of_length hl
    · exact (hp.eq_of_length hl.symm).symm
  have h1 := h.1.1
  rw [this, h'.1.1] at h1
  cases h1
  rfl

/-- The entries are the label between the offsets. -/
theorem cut_text {env : Env} {r : Repertoire} {label : Seq} {o e : Nat} {cs : List CharObj} (h : Cut env r label o cs e) :
    e = o + (cs.flatMap CharObj.cp).length ∧ cs.flatMap CharObj.cp <+: label.drop o := by
  induction h with
  | done o => simp
  | @step o e c cs h1 h2 _ ih =>
    obtain ⟨ih1, ih2⟩ := ih
    rw [List.flatMap_cons]
    refine ⟨by rw [ih1, List.length_append]; unfold CharObj.len; omega, ?_⟩
    obtain ⟨u, hu⟩ := h1.1.2
    rw [← List.drop_drop, ← hu, CharObj.len, List.drop_left] at ih2
    rw [← hu]
    exact (List.prefix_append_right_inj c.cp).2 ih2

/-- There is one way at most to cut the whole label. -/
theorem cut_unique {env : Env} {r : Repertoire} {label : Seq} {o e : Nat} {cs ds : List CharObj} (h : Cut env r label o cs e)
    (h' : Cut env r label o ds e) : cs = ds := by
  induction h generalizing ds with
  | done o =>
    cases h' with
    | done => rfl
    | step h1 h2 h3 =>
      have := stands_le h1
      have := (cut_text h3).1
      omega
  | @step o e c cs h1 h2 h3 ih =>
    cases h' with
    | done =>
      have := stands_le h1
      have := (cut_text h3).1
      omega
    | @step _ _ d ds g1 g2 g3 =>
      have := stands_same h1 g1 (Nat.le_antisymm (g2 c h1) (h2 d g1))
      subst this
      rw [ih g3]

theorem cut_append {env : Env} {r : Repertoire} {label : Seq} {o m e : Nat} {cs ds : List CharObj} (h : Cut env r label o cs m)
    (h' : Cut env r label m ds e) : Cut env r label o (cs ++ ds) e := by
  induction h with
  | done o => exact h'
  | step h1 h2 _ ih => exact .step h1 h2 (ih h')

/-- Right pieces without rejected ones are a cut. -/
theorem cut_of_right {env : Env} {r : Repertoire} {label : Seq} : ∀ (cs : List CharObj) (o : Nat),
    (∀ pre c post, cs = pre ++ c :: post → (Piece.char c).Right env r label (o + (pre.flatMap CharObj.cp).length)) →
    Cut env r label o cs (o + (cs.flatMap CharObj.cp).length)
  | [], o, _ => .done o
  | c :: cs, o, h => by
    have h0 := h [] c cs rfl
    simp only [List.flatMap_nil, List.length_nil, Nat.add_zero] at h0
    have e : o + ((c :: cs).flatMap CharObj.cp).length = o + c.len + (cs.flatMap CharObj.cp).length := by
      rw [List.flatMap_cons, List.length_append]; unfold CharObj.len; omega
    rw [e]
    refine .step ⟨h0.1, h0.2.1⟩ (fun d hd => h0.2.2 d hd.1 hd.2) (cut_of_right cs _ ?_)
    intro pre d post hs
    have := h (c :: pre) d post (by rw [hs]; rfl)
    rw [List.flatMap_cons, List.length_append] at this
    have e : o + c.len + (pre.flatMap CharObj.cp).length = o + (c.cp.length + (pre.flatMap CharObj.cp).length) := by
      unfold CharObj.len; omega
    rw [e]
    exact this

/-- A cut of the label determines the pieces. -/
theorem pieces_of_cut {env : Env} {r : Repertoire} {label : Seq} : ∀ (items : List Piece) (o : Nat) (cs : List CharObj) (e : Nat),
    items.flatMap Piece.cps = label.drop o →
    (∀ pre it post, items = pre ++ it :: post → it.Right env r label (o + (pre.flatMap Piece.cps).length)) →
    Cut env r label o cs e → ∃ rest, items = cs.map Piece.char ++ rest ∧ rest.flatMap Piece.cps = label.drop e ∧
      ∀ pre it post, rest = pre ++ it :: post → it.Right env r label (e + (pre.flatMap Piece.cps).length) := by
  intro items o cs e hcat hr hc
  induction hc generalizing items with
  | done o => exact ⟨items, rfl, hcat, hr⟩
  | @step o e c cs h1 h2 h3 ih =>
    have hle := stands_le h1
    cases items with
    | nil =>
      have hl := congrArg List.length hcat
      simp only [List.flatMap_nil, List.length_nil, List.length_drop] at hl
      omega
    | cons it items =>
      have hr0 : it.Right env r label o := by simpa using hr [] it items rfl
      cases it with
      | bad x l => exact absurd (hr0.1 c h1.1) (ctx_not_both h1.2)
      | char d =>
        have hd : Stands env r label o d := ⟨hr0.1, hr0.2.1⟩
        have := stands_same hd h1 (Nat.le_antisymm (h2 d hd) (hr0.2.2 c h1.1 h1.2))
        subst this
        obtain ⟨rest, g1, g2, g3⟩ := ih items (by
            have e1 : d.cp ++ items.flatMap Piece.cps = label.drop o := by simpa [Piece.cps] using hcat
            rw [← List.drop_drop, ← e1, CharObj.len, List.drop_left]) (by
            intro pre it post hs
            have := hr (.char d :: pre) it post (by simp [hs])
            simpa [Piece.cps, CharObj.len, Nat.add_assoc] using this)
        exact ⟨rest, by rw [g1]; rfl, g2, g3⟩

/-- **C152** A label passes the preliminary test exactly when it can be cut, from its beginning to its end, into entries each of
which is the longest in valid context where it stands; these are then the characters returned. -/
theorem accepts_iff {env : Env} {r : Repertoire} (h : WF r) {label : Seq} {p : Env.Prelim} (he : env.prelim r label = .ok p)
    (cs : List CharObj) : (p.ok = true ∧ p.chars = cs) ↔ Cut env r label 0 cs label.length := by
  obtain ⟨items, hD⟩ := prelim_describes h he
  constructor
  · rintro ⟨hok, rfl⟩
    have hi := hD.ok.1 hok
    have hall : items = p.chars.map Piece.char := by
      rw [hD.chars]; exact bad_nil (by rw [← hD.invalid, hi])
    have hc := cut_of_right (env := env) (r := r) (label := label) p.chars 0 (by
      intro pre c post hs
      have := hD.right (pre.map .char) (.char c) (post.map .char) (by rw [hall, hs]; simp)
      simpa [flatMap_char] using this)
    have hcat : p.chars.flatMap CharObj.cp = label := by
      rw [← flatMap_char, ← hall]; exact hD.concat
    rw [hcat, Nat.zero_add] at hc
    exact hc
  · intro hc
    obtain ⟨rest, h1, h2, -⟩ := pieces_of_cut items 0 cs label.length (by simpa using hD.concat) hD.right hc
    rw [List.drop_length] at h2
    have hr : rest = [] := by
      cases rest with
      | nil => rfl
      | cons it rest =>
        exfalso
        rw [List.flatMap_cons, List.append_eq_nil_iff] at h2
        have hm : it ∈ items := by rw [h1]; simp
        obtain ⟨pre, post, hs⟩ := List.append_of_mem hm
        have := hD.right pre it post hs
        cases it with
        | char c => exact getChar_ne_nil this.1.1 h2.1
        | bad x l => simp [Piece.cps] at h2
    rw [hr, List.append_nil] at h1
    have hch : p.chars = cs := by
      rw [hD.chars, h1, List.filterMap_map]
      simp [Piece.char?, Function.comp_def]
    have hinv : p.invalid = [] := by
      rw [hD.invalid, h1, List.filterMap_map]
      simp [Piece.bad?, Function.comp_def]
    exact ⟨hD.ok.2 hinv, hch⟩

/-- Otherwise the first code point reported is where cutting comes to a stop: no entry stands there in valid context. -/
theorem rejects_iff {env : Env} {r : Repertoire} (h : WF r) {label : Seq} {p : Env.Prelim} (he : env.prelim r label = .ok p)
    (x : Nat) : (∃ l, p.invalid.head? = some (x, l)) ↔
      ∃ cs o, Cut env r label 0 cs o ∧ label[o]? = some x ∧ ∀ d, ¬ Stands env r label o d := by
  obtain ⟨items, hD⟩ := prelim_describes h he
  constructor
  · rintro ⟨l, hx⟩
    have hsplit : ∀ its : List Piece, (its.filterMap Piece.bad?).head? = some (x, l) →
        ∃ cs post, its = List.map Piece.char cs ++ .bad x l :: post := by
      intro its
      induction its with
      | nil => intro h; cases h
      | cons it its ih =>
        intro h
        cases it with
        | char c =>
          obtain ⟨cs, post, rfl⟩ := ih (by rw [← h]; rfl)
          exact ⟨c :: cs, post, rfl⟩
        | bad y m =>
          simp [Piece.bad?] at h
          obtain ⟨rfl, rfl⟩ := h
          exact ⟨[], its, rfl⟩
    obtain ⟨cs, post, hi⟩ := hsplit items (by rw [← hD.invalid]; exact hx)
    have hc := cut_of_right (env := env) (r := r) (label := label) cs 0 (by
      intro pre c post' hs
      have := hD.right (pre.map .char) (.char c) (post'.map .char ++ .bad x l :: post) (by rw [hi, hs]; simp)
      simpa [flatMap_char] using this)
    have hb := hD.right (cs.map .char) (.bad x l) post hi
    rw [flatMap_char] at hb
    refine ⟨cs, _, hc, ?_, fun d hd => ?_⟩
    · have : label = cs.flatMap CharObj.cp ++ x :: post.flatMap Piece.cps := by
        rw [← hD.concat, hi, List.flatMap_append, flatMap_char]; rfl
      rw [this, Nat.zero_add]
      simp
    · exact ctx_not_both hd.2 (hb.1 d hd.1)
  · rintro ⟨cs, o, hc, hx, hno⟩
    obtain ⟨rest, h1, h2, h3⟩ := pieces_of_cut items 0 cs o (by simpa using hD.concat) hD.right hc
    cases rest with
    | nil =>
      have hl := congrArg List.length h2
      have := (List.getElem?_eq_some_iff.1 hx).1
      simp only [List.flatMap_nil, List.length_nil, List.length_drop] at hl
      omega
    | cons it rest =>
      have h0 : it.Right env r label o := by simpa using h3 [] it rest rfl
      cases it with
      | char c => exact absurd ⟨h0.1, h0.2.1⟩ (hno c)
      | bad y l =>
        have hy : y = x := by
          have := congrArg List.head? h2
          rw [List.head?_drop, hx] at this
          simpa [Piece.cps] using this
        refine ⟨l, ?_⟩
        rw [hD.invalid, h1, List.filterMap_append, List.filterMap_map, hy]
        have : List.filterMap (Piece.bad? ∘ Piece.char) cs = [] := by simp [Piece.bad?, Function.comp_def]
        rw [this]
        rfl

/-! ## Under the LGR read from a document -/

/-- A sequence of the item stands at this offset, in the context the item asks for. -/
def There (db : String → Except Err CpSet) (is : List Item) (es : List Node) (label : Seq) (o : Nat) (i : Item) (k : Seq) : Prop :=
  i ∈ is ∧ i.Has k ∧ k <+: label.drop o ∧ InContext db is es label i.attrs.whenR i.attrs.notWhenR o k.length

/-- The label, from offset `o` on, cut into the longest sequences of items of the document. -/
inductive DocCut (db : String → Except Err CpSet) (is : List Item) (es : List Node) (label : Seq) : Nat → List Seq → Nat → Prop
  | done (o : Nat) : DocCut db is es label o [] o
  | step {o e : Nat} {i : Item} {k : Seq} {ks : List Seq} : There db is es label o i k →
      (∀ j k', There db is es label o j k' → k'.length ≤ k.length) → DocCut db is es label (o + k.length) ks e →
      DocCut db is es label o (k :: ks) e

theorem there_of_stands {R : Reader} {is : List Item} {es : List Node} {g : Loaded} (hc : Common R is es g)
    {env : Env} (hE : Faithful R.props g.rules.rs env) {label : Seq} (hp : Plain label) (hso : Inhabited R.props is es)
    (hready : Ready es is) (hone : ∀ i ∈ is, i.attrs.whenR = none ∨ i.attrs.notWhenR = none)
    (hrep : ∀ k c, g.lgr.rep.lookup k = some c → ∃ i ∈ is, Holds i k c) {o : Nat} {c : CharObj}
    (h : Stands env g.lgr.rep label o c) : ∃ i, There R.props is es label o i c.cp := by
  obtain ⟨i, hi, hh⟩ := hrep _ _ (getChar_ok.1 h.1.1)
  refine ⟨i, hi, hh.1, h.1.2, ?_⟩
  have hctx := h.2
  unfold CharCtx at hctx
  rw [hh.2.2.1] at hctx
  exact (context_iff hc hE hp hso (hready i hi).1 (hone i hi) (by have := (stands_le h).2; omega) h.1.2).1 hctx

theorem stands_of_there {R : Reader} {is : List Item} {es : List Node} {g : Loaded} (hc : Common R is es g)
    {env : Env} (hE : Faithful R.props g.rules.rs env) {label : Seq} (hp : Plain label) (hso : Inhabited R.props is es)
    (hready : Ready es is) (hone : ∀ i ∈ is, i.attrs.whenR = none ∨ i.attrs.notWhenR = none)
    (hin : ∀ k, (g.lgr.rep.lookup k).isSome ↔ ∃ i ∈ is, i.Has k) (hap : Apart is)
    (hrep : ∀ k c, g.lgr.rep.lookup k = some c → ∃ i ∈ is, Holds i k c) {o : Nat} (ho : o ≤ label.length) {i : Item} {k : Seq}
    (h : There R.props is es label o i k) : ∃ c, c.cp = k ∧ Stands env g.lgr.rep label o c := by
  obtain ⟨hi, hk, hpre, hctx⟩ := h
  obtain ⟨c, hl⟩ := Option.isSome_iff_exists.1 ((hin k).2 ⟨i, hi, hk⟩)
  have hcp : c.cp = k := lookup_cp hl
  obtain ⟨j, hj, hh⟩ := hrep _ _ hl
  have ha : c.attrs = i.attrs := by
    rw [hh.2.2.1]
    rcases apart_cases hap hi hj with rfl | h | h
    · rfl
    · exact absurd hh.1 (h _ hk)
    · exact absurd hk (h _ hh.1)
  refine ⟨c, hcp, ⟨by rw [getChar_ok, hcp]; exact hl, by rw [hcp]; exact hpre⟩, ?_⟩
  unfold CharCtx
  rw [ha, hcp]
  exact (context_iff hc hE hp hso (hready i hi).1 (hone i hi) ho hpre).2 hctx

/-- **C152** for documents: under the LGR read from a document, a label passes the preliminary test exactly when it can be cut into
sequences of items of the data section, each of which is the longest that stands there in the context its item asks for. The
test raises nothing. Overlapping sequences are allowed. -/
theorem document_accepts_iff {R : Reader} {cs : Rfc7940.Results} {d : Doc} {g : Loaded} (h : Clear R cs d g)
    {is : List Item} (hm : Means d.data is) (hready : Ready (d.rules.getD []) is)
    (hso : Inhabited R.props is (d.rules.getD [])) {env : Env} (hE : Faithful R.props g.rules.rs env) {label : Seq}
    (hp : Plain label) :
    ∃ p, env.prelim g.lgr.rep label = .ok p ∧
      ∀ ks, (p.ok = true ∧ p.chars.map CharObj.cp = ks) ↔ DocCut R.props is (d.rules.getD []) label 0 ks label.length := by
  obtain ⟨hc, hfine, hin, hrep, hap⟩ := common_of h hm
  have hwf := hc.state.1
  have hone : ∀ i ∈ is, i.attrs.whenR = none ∨ i.attrs.notWhenR = none := fun i hi => (hfine i hi).1.1
  obtain ⟨p, hpre⟩ := prelim_defined hwf (rules_defined hc hE hready hrep) label
  refine ⟨p, hpre, fun ks => ?_⟩
  constructor
  · rintro ⟨hok, rfl⟩
    have hcut := (accepts_iff hwf hpre p.chars).1 ⟨hok, rfl⟩
    generalize p.chars = cs at hcut
    generalize 0 = o at hcut
    generalize label.length = e at hcut
    induction hcut with
    | done o => exact .done o
    | step h1 h2 _ ih =>
      obtain ⟨i, hi⟩ := there_of_stands hc hE hp hso hready hone hrep h1
      refine .step hi (fun j k' hj => ?_) ih
      obtain ⟨c', rfl, hc'⟩ := stands_of_there hc hE hp hso hready hone hin hap hrep (by have := (stands_le h1).2; omega) hj
      exact h2 c' hc'
  · intro hcut
    have key : ∀ o e ks, DocCut R.props is (d.rules.getD []) label o ks e → o ≤ label.length →
        ∃ cs, cs.map CharObj.cp = ks ∧ Cut env g.lgr.rep label o cs e := by
      intro o e ks hcut
      induction hcut with
      | done o => exact fun _ => ⟨[], rfl, .done o⟩
      | @step o e i k ks h1 h2 _ ih =>
        intro ho
        obtain ⟨c, rfl, hs⟩ := stands_of_there hc hE hp hso hready hone hin hap hrep ho h1
        obtain ⟨cs, rfl, hcs⟩ := ih (stands_le hs).2
        refine ⟨c :: cs, rfl, .step hs (fun c' hc' => ?_) hcs⟩
        obtain ⟨j, hj⟩ := there_of_stands hc hE hp hso hready hone hrep hc'
        exact h2 j _ hj
    obtain ⟨cs, rfl, hcs⟩ := key _ _ _ hcut (Nat.zero_le _)
    obtain ⟨h1, h2⟩ := (accepts_iff hwf hpre cs).2 hcs
    exact ⟨h1, by rw [h2]⟩

/-! ## Examples -/

/-- With `a`, `ab` and `bc`, the label `abbc` is cut into `ab` and `bc`, and `abc` is not accepted: after `ab`, nothing stands at `c`. -/
example : Cut ⟨fun _ _ _ _ => .ok true⟩ (Repertoire.run {} [.addChar [97] {}, .addChar [97, 98] {}, .addChar [98, 99] {}]) [97, 98, 98, 99] 0
      [{ cp := [97, 98] }, { cp := [98, 99] }] 4 ∧
    ∀ cs, ¬ Cut ⟨fun _ _ _ _ => .ok true⟩ (Repertoire.run {} [.addChar [97] {}, .addChar [97, 98] {}, .addChar [98, 99] {}]) [97, 98, 99] 0 cs 3 := by
  have hw : WF (Repertoire.run {} [.addChar [97] {}, .addChar [97, 98] {}, .addChar [98, 99] {}]) := C01.wf_run _
  have h1 : ((Env.mk fun _ _ _ _ => .ok true).prelim (Repertoire.run {} [.addChar [97] {}, .addChar [97, 98] {}, .addChar [98, 99] {}])
      [97, 98, 98, 99]).map (fun p => (p.ok, p.chars)) = .ok (true, [{ cp := [97, 98] }, { cp := [98, 99] }]) := by decide +kernel
  have h2 : ((Env.mk fun _ _ _ _ => .ok true).prelim (Repertoire.run {} [.addChar [97] {}, .addChar [97, 98] {}, .addChar [98, 99] {}])
      [97, 98, 99]).map (fun p => p.ok) = .ok false := by decide +kernel
  constructor
  · cases hp : (Env.mk fun _ _ _ _ => .ok true).prelim (Repertoire.run {} [.addChar [97] {}, .addChar [97, 98] {}, .addChar [98, 99] {}]) [97, 98, 98, 99] with
    | error e => rw [hp] at h1; cases h1
    | ok p =>
      rw [hp] at h1
      simp only [Except.map, Except.ok.injEq, Prod.mk.injEq] at h1
      exact (accepts_iff hw hp _).1 h1
  · intro cs hc
    cases hp : (Env.mk fun _ _ _ _ => .ok true).prelim (Repertoire.run {} [.addChar [97] {}, .addChar [97, 98] {}, .addChar [98, 99] {}]) [97, 98, 99] with
    | error e => rw [hp] at h2; cases h2
    | ok p =>
      rw [hp] at h2
      have := ((accepts_iff hw hp cs).2 hc).1
      simp only [Except.map, Except.ok.injEq] at h2
      rw [this] at h2
      cases h2

/-- The hypotheses of `document_accepts_iff` are met by a document with overlapping sequences, `a`, `ab` and `bc`. -/
example : ∃ g env, Clear reader1 [] doc2 g ∧ Means doc2.data items2 ∧ Ready (doc2.rules.getD []) items2 ∧
    Inhabited reader1.props items2 (doc2.rules.getD []) ∧ Faithful reader1.props g.rules.rs env ∧
    Plain [0x61, 0x62, 0x62, 0x63] := by
  obtain ⟨g, hg, hm, -⟩ := beginning_wrong
  obtain ⟨env, he⟩ := faithful_exists (common_of hg hm).1
  refine ⟨g, env, hg, hm, ?_, ?_, he, by unfold C106.Plain; decide⟩
  · intro i hi
    simp only [items2, List.mem_cons, List.not_mem_nil, or_false] at hi
    rcases hi with rfl | rfl | rfl <;> simp [Item.attrs, Item.vars]
  · intro w _ e he
    cases he

end Lgr.Props.C152
