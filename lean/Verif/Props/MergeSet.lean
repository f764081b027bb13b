import Verif.Props.MergeReread
import Verif.Props.MergeRefs

/-!
# C45: what the merge of a set of LGRs contains

The merge is described by the code points and the variants of the LGRs given, whatever the order
in which they are taken and whatever the order of the sets of the program.
-/

namespace Lgr.Props.C45
open Lgr LGR Repertoire C50 C26 C28 Compare MergeSet C94 Relation

/-- An LGR as built by the API. -/
structure Good (i : Input) : Prop where
  wf : WF i.lgr.rep
  intact : Intact i.lgr.rep
  refs : (i.lgr.refs.refs.map Prod.fst).Nodup

/-- `x` has `y` as a variant in one of the LGRs. -/
def PairIn (l : List Input) (x y : Seq) : Prop := ∃ i ∈ l, Pair i.lgr x y

/-- `g` has the code points and the variants of the LGRs of `l`; `D` says that references are followed. -/
structure MInv (D : Prop) (l : List Input) (g : LGR) : Prop where
  wf : WF g.rep
  plain : Plain g
  refsNodup : (g.refs.refs.map Prod.fst).Nodup
  node : ∀ k, In g k ↔ ∃ i ∈ l, In i.lgr k
  tags : ∀ k e, g.rep.lookup k = some e → e.attrs.tags.Nodup ∧
    ∀ t, t ∈ e.attrs.tags ↔ ∃ i ∈ l, ∃ c, i.lgr.rep.lookup k = some c ∧ TagOf i c t
  has : ∀ i ∈ l, ∀ k v, Maps i.lgr k v → ∃ u, Maps g k u ∧ u.cp = v.cp ∧
    (u.whenR = v.whenR ∧ u.notWhenR = v.notWhenR ∨
      u.whenR = preRule i.script v.whenR ∧ u.notWhenR = preRule i.script v.notWhenR)
  kind : ∀ k u, Maps g k u →
    (∃ i ∈ l, ∃ v f, Maps i.lgr k v ∧ u = ren i.script f v ∧ (D → Faithful i.lgr.refs g.refs f)) ∨
    u = trans u.cp ∧ EqvGen (PairIn l) k u.cp ∧ Pair g u.cp k
  single : ∀ i l' k c e, (i :: l').Perm l → i.lgr.rep.lookup k = some c → (∀ j ∈ l', ¬ In j.lgr k) →
    g.rep.lookup k = some e →
    (∃ f, (D → Faithful i.lgr.refs g.refs f) ∧ e.attrs.refs = c.attrs.refs.map f) ∧
      e.attrs.comment = c.attrs.comment ∧ e.attrs.whenR = preRule i.script c.attrs.whenR ∧
      e.attrs.notWhenR = preRule i.script c.attrs.notWhenR

theorem eqv_mono {α : Type} {r s : α → α → Prop} (h : ∀ x y, r x y → s x y) {x y : α}
    (hxy : EqvGen r x y) : EqvGen s x y := by
  induction hxy with
  | rel x y h1 => exact .rel _ _ (h _ _ h1)
  | refl x => exact .refl x
  | symm x y _ ih => exact ih.symm
  | trans x y z _ _ ih1 ih2 => exact ih1.trans _ _ _ ih2

theorem pairIn_left {l : List Input} {i : Input} {x y : Seq} (h : PairIn l x y) : PairIn (l ++ [i]) x y := by
  obtain ⟨j, hj, h⟩ := h
  exact ⟨j, by simp [hj], h⟩

theorem MInv.pair {D : Prop} {l : List Input} {g : LGR} (h : MInv D l g) {x y : Seq} (hp : Pair g x y) :
    EqvGen (PairIn l) x y := by
  obtain ⟨u, hu, rfl⟩ := hp
  rcases h.kind x u hu with ⟨i, hi, v, f, hv, hr, -⟩ | ⟨-, h2, -⟩
  · refine .rel _ _ ⟨i, hi, v, hv, ?_⟩
    rw [hr]; rfl
  · exact h2

theorem empty_lookup (k : Seq) : ({} : LGR).rep.lookup k = none := by
  cases k <;> rfl

theorem minv_nil (D : Prop) : MInv D [] ({} : LGR) where
  wf := ⟨by simp, by simp, by simp, by simp, by simp⟩
  plain := by
    intro k c h
    rw [empty_lookup] at h; simp at h
  refsNodup := by show (([] : List (String × Ref)).map Prod.fst).Nodup; simp
  node k := by
    constructor
    · rintro ⟨c, h⟩
      rw [empty_lookup] at h; simp at h
    · simp
  tags k e h := by rw [empty_lookup] at h; simp at h
  has i hi := by simp at hi
  kind k u h := by
    obtain ⟨c, h, -⟩ := h
    rw [empty_lookup] at h; simp at h
  single i l' k c e hp := by simp at hp

/-- One LGR more. -/
theorem minv_step {D : Prop} {l : List Input} {g0 g1 src : LGR} {rm : RefManager} {i : Input}
    {f : String → String} {prev : List String} (h0 : MInv D l g0)
    (hl : ∀ k, src.rep.lookup k = (i.lgr.rep.lookup k).map C06.noRange)
    (hg : Grows g0.refs rm) (hn : (rm.refs.map Prod.fst).Nodup) (hf : D → Faithful i.lgr.refs rm f)
    (hr : Round i f prev src { g0 with refs := rm } g1) : MInv D (l ++ [i]) g1 := by
  have hsrc : ∀ {k c}, i.lgr.rep.lookup k = some c → src.rep.lookup k = some (C06.noRange c) := by
    intro k c hc; rw [hl, hc]; rfl
  have hsrc' : ∀ {k c}, src.rep.lookup k = some c → ∃ d, i.lgr.rep.lookup k = some d ∧ c = C06.noRange d := by
    intro k c hc
    rw [hl] at hc
    cases hd : i.lgr.rep.lookup k with
    | none => rw [hd] at hc; simp at hc
    | some d => rw [hd] at hc; simp at hc; exact ⟨d, rfl, hc.symm⟩
  have hrefs : g1.refs = rm := hr.refs
  have hmaps : ∀ {k v}, Maps src k v → Maps i.lgr k v := by
    rintro k v ⟨c, hc, hv⟩
    obtain ⟨d, hd, rfl⟩ := hsrc' hc
    exact ⟨d, hd, hv⟩
  have hpairs : ∀ {x y}, Pair src x y → PairIn (l ++ [i]) x y := by
    rintro x y ⟨v, hv, rfl⟩
    exact ⟨i, by simp, v, hmaps hv, rfl⟩
  have heqv : ∀ {x y}, Pair ({ g0 with refs := rm } : LGR) x y → EqvGen (PairIn (l ++ [i])) x y := by
    intro x y h
    exact eqv_mono (fun _ _ => pairIn_left) (h0.pair h)
  -- what was there stays
  have hkeep : ∀ {k u}, Maps g0 k u → Maps g1 k u := by
    rintro k u ⟨o, ho, hu⟩
    obtain ⟨e, he⟩ := (hr.node k).2 (.inl ⟨o, ho⟩)
    cases hs : src.rep.lookup k with
    | none =>
      obtain ⟨o', ho', -, h2, -⟩ := hr.rest k e hs he
      have : o' = o := by
        have h3 : g0.rep.lookup k = some o' := ho'
        rw [ho] at h3; exact (Option.some.inj h3).symm
      subst this
      exact ⟨e, he, h2 u hu⟩
    | some c =>
      obtain ⟨e0, hj, -, h2, -⟩ := hr.done k c e hs he
      exact ⟨e, he, h2 u ((hj.vars u).2 (.inl ⟨o, ho, hu⟩))⟩
  refine ⟨hr.wf, hr.plain, by rw [hrefs]; exact hn, ?_, ?_, ?_, ?_, ?_⟩
  · -- code points
    intro k
    rw [hr.node]
    have h1 : In ({ g0 with refs := rm } : LGR) k ↔ ∃ j ∈ l, In j.lgr k := h0.node k
    have h2 : In src k ↔ In i.lgr k := by
      constructor
      · rintro ⟨c, hc⟩
        obtain ⟨d, hd, -⟩ := hsrc' hc
        exact ⟨d, hd⟩
      · rintro ⟨c, hc⟩; exact ⟨_, hsrc hc⟩
    rw [h1, h2]
    simp only [List.mem_append, List.mem_singleton]
    constructor
    · rintro (⟨j, hj, h⟩ | h)
      · exact ⟨j, .inl hj, h⟩
      · exact ⟨i, .inr rfl, h⟩
    · rintro ⟨j, hj | rfl, h⟩
      · exact .inl ⟨j, hj, h⟩
      · exact .inr h
  · -- tags
    intro k e he
    cases hs : src.rep.lookup k with
    | none =>
      obtain ⟨o, ho, ha, -, -⟩ := hr.rest k e hs he
      obtain ⟨t1, t2⟩ := h0.tags k o ho
      rw [ha]
      refine ⟨t1, fun t => ?_⟩
      rw [t2]
      constructor
      · rintro ⟨j, hj, h⟩; exact ⟨j, by simp [hj], h⟩
      · rintro ⟨j, hj, c, hc, h⟩
        rcases List.mem_append.1 hj with hj | hj
        · exact ⟨j, hj, c, hc, h⟩
        · rw [List.mem_singleton.1 hj] at hc
          rw [hsrc hc] at hs; simp at hs
    | some c =>
      obtain ⟨e0, hj, ha, -, -⟩ := hr.done k c e hs he
      obtain ⟨d, hd, rfl⟩ := hsrc' hs
      rw [ha]
      refine ⟨hj.tagsNodup, fun t => ?_⟩
      rw [hj.tags]
      constructor
      · rintro (⟨o, ho, ht⟩ | ht)
        · obtain ⟨j, hj, h⟩ := ((h0.tags k o ho).2 t).1 ht
          exact ⟨j, by simp [hj], h⟩
        · exact ⟨i, by simp, d, hd, ht⟩
      · rintro ⟨j, hjm, c, hc, ht⟩
        rcases List.mem_append.1 hjm with hjm | hjm
        · obtain ⟨o, ho⟩ := (h0.node k).2 ⟨j, hjm, c, hc⟩
          exact .inl ⟨o, ho, ((h0.tags k o ho).2 t).2 ⟨j, hjm, c, hc, ht⟩⟩
        · rw [List.mem_singleton.1 hjm] at hc ht
          rw [hd] at hc; cases hc
          exact .inr ht
  · -- variants of the LGRs
    intro j hj k v hv
    rcases List.mem_append.1 hj with hj | hj
    · obtain ⟨u, h1, h2⟩ := h0.has j hj k v hv
      exact ⟨u, hkeep h1, h2⟩
    · rw [List.mem_singleton.1 hj] at hv ⊢
      obtain ⟨c, hc, hv⟩ := hv
      obtain ⟨e, he⟩ := (hr.node k).2 (.inr ⟨_, hsrc hc⟩)
      obtain ⟨e0, hjn, -, h2, -⟩ := hr.done k _ e (hsrc hc) he
      by_cases hex : ∃ o, ({ g0 with refs := rm } : LGR).rep.lookup k = some o ∧ ∃ w ∈ o.getVariants, w.key = v.key
      · obtain ⟨o, ho, w, hw, hk⟩ := hex
        have hk' := hk
        simp only [Variant.key, Prod.mk.injEq] at hk'
        exact ⟨w, hkeep ⟨o, ho, hw⟩, hk'.1, .inl ⟨hk'.2.1, hk'.2.2⟩⟩
      · refine ⟨ren i.script f v, ⟨e, he, h2 _ ((hjn.vars _).2 (.inr ⟨v, hv, rfl, ?_⟩))⟩, rfl, .inr ⟨rfl, rfl⟩⟩
        intro o ho w hw hk
        exact hex ⟨o, ho, w, hw, hk⟩
  · -- variants of the merge
    intro k u hu
    have hold : Maps g0 k u → (∃ j ∈ l ++ [i], ∃ v f, Maps j.lgr k v ∧ u = ren j.script f v ∧
        (D → Faithful j.lgr.refs g1.refs f)) ∨
        u = trans u.cp ∧ EqvGen (PairIn (l ++ [i])) k u.cp ∧ Pair g1 u.cp k := by
      intro h
      rcases h0.kind k u h with ⟨j, hj, v, f', h1, h2, h3⟩ | ⟨h1, h2, w, h3, h4⟩
      · exact .inl ⟨j, by simp [hj], v, f', h1, h2, fun hd => by rw [hrefs]; exact (h3 hd).grow hg⟩
      · exact .inr ⟨h1, eqv_mono (fun _ _ => pairIn_left) h2, w, hkeep h3, h4⟩
    have hnew : ∀ v, Maps i.lgr k v → u = ren i.script f v → (∃ j ∈ l ++ [i], ∃ v f, Maps j.lgr k v ∧
        u = ren j.script f v ∧ (D → Faithful j.lgr.refs g1.refs f)) ∨
        u = trans u.cp ∧ EqvGen (PairIn (l ++ [i])) k u.cp ∧ Pair g1 u.cp k := fun v hv he =>
      .inl ⟨i, by simp, v, f, hv, he, fun hd => by rw [hrefs]; exact hf hd⟩
    obtain ⟨e, he, hu⟩ := hu
    have htr : (∃ y, u = trans y) → (∃ j ∈ l ++ [i], ∃ v f, Maps j.lgr k v ∧
        u = ren j.script f v ∧ (D → Faithful j.lgr.refs g1.refs f)) ∨
        u = trans u.cp ∧ EqvGen (PairIn (l ++ [i])) k u.cp ∧ Pair g1 u.cp k := by
      rintro ⟨y, rfl⟩
      rcases hr.added k e y he hu with ⟨o, ho, h1⟩ | ⟨c, hc, v, hv, h1⟩ | ⟨⟨e', he', h1⟩, x, h2⟩
      · exact hold ⟨o, ho, h1⟩
      · exact hnew v (hmaps ⟨c, hc, hv⟩) h1
      · refine .inr ⟨rfl, ?_, ⟨trans k, ⟨e', he', h1⟩, rfl⟩⟩
        rcases h2 with ⟨h2, h3⟩ | ⟨h2, h3⟩
        · exact .trans _ _ _ (.symm _ _ (.rel _ _ (hpairs h2))) (heqv h3)
        · exact .trans _ _ _ (.symm _ _ (heqv h3)) (.rel _ _ (hpairs h2))
    cases hs : src.rep.lookup k with
    | none =>
      obtain ⟨o, ho, -, -, h2⟩ := hr.rest k e hs he
      rcases h2 u hu with h2 | h2
      · exact hold ⟨o, ho, h2⟩
      · exact htr h2
    | some c =>
      obtain ⟨e0, hj, -, -, h2⟩ := hr.done k c e hs he
      rcases h2 u hu with h2 | h2
      · rcases (hj.vars u).1 h2 with ⟨o, ho, h3⟩ | ⟨v, hv, h3, -⟩
        · exact hold ⟨o, ho, h3⟩
        · exact hnew v (hmaps ⟨c, hs, hv⟩) h3
      · exact htr h2
  · -- code points of one LGR only
    intro j l' k c e hp hc hno he
    have him : i ∈ j :: l' := hp.mem_iff.2 (by simp)
    rcases List.mem_cons.1 him with rfl | him
    · have hp' : l'.Perm l := by
        have h1 : (i :: l').Perm (i :: l) := hp.trans (List.perm_append_singleton i l)
        exact (List.perm_cons i).1 h1
      have hnone : g0.rep.lookup k = none := by
        cases ho : g0.rep.lookup k with
        | none => rfl
        | some o =>
          obtain ⟨j, hj, h⟩ := (h0.node k).1 ⟨o, ho⟩
          exact absurd h (hno j (hp'.mem_iff.2 hj))
      obtain ⟨e0, hj, ha, -, -⟩ := hr.done k _ e (hsrc hc) he
      obtain ⟨n1, n2, n3, n4⟩ := hj.new hnone
      rw [ha]
      exact ⟨⟨f, fun hd => by rw [hrefs]; exact hf hd, n1⟩, n2, n3, n4⟩
    · have hs : src.rep.lookup k = none := by
        cases hs : src.rep.lookup k with
        | none => rfl
        | some d =>
          obtain ⟨d', hd', -⟩ := hsrc' hs
          exact absurd ⟨d', hd'⟩ (hno i him)
      obtain ⟨o, ho, ha, -, -⟩ := hr.rest k e hs he
      obtain ⟨a, b, rfl⟩ := List.append_of_mem him
      have hp' : (j :: (a ++ b)).Perm l := by
        have h1 : (i :: (j :: (a ++ b))).Perm (i :: l) := by
          refine List.Perm.trans ?_ (hp.trans (List.perm_append_singleton i l))
          have h2 : (j :: (a ++ i :: b)).Perm (j :: i :: (a ++ b)) := (List.perm_middle).cons j
          exact (List.Perm.swap j i (a ++ b)).trans h2.symm
        exact (List.perm_cons i).1 h1
      obtain ⟨⟨f', s1, s2⟩, s3⟩ := h0.single j (a ++ b) k c o hp' hc
        (fun x hx => hno x (by
          rcases List.mem_append.1 hx with hx | hx
          · exact List.mem_append_left _ hx
          · exact List.mem_append_right _ (List.mem_cons_of_mem _ hx))) ho
      rw [ha]
      exact ⟨⟨f', fun hd => by rw [hrefs]; exact (s1 hd).grow hg, s2⟩, s3⟩

/-! ### The identifiers of the references -/

/-- A name that can be in a list separated by spaces. -/
def Word (w : String) : Prop := ' ' ∉ w.toList ∧ w ≠ ""

/-- Every identifier of a reference is a word. -/
def IdsOk (m : RefManager) : Prop := ∀ p ∈ m.refs, Word p.1

theorem words_of {l : List String} (h : ∀ w ∈ l, Word w) : C34.Words l :=
  ⟨fun w hw => (h w hw).1, by rintro rfl; exact (h "" (by simp)).2 rfl⟩

theorem decStr_word (n : Nat) : ' ' ∉ Text.decStr n ∧ Text.decStr n ≠ [] := by
  constructor
  · intro h
    obtain ⟨d, hd, he⟩ := List.mem_map.1 h
    have h1 := Text.digitsOf_lt (b := 10) (by omega) n d hd
    have h2 := (Text.digitChar_nospace (d := d) (by omega)).1
    rw [he] at h2
    exact absurd h2 (by decide)
  · intro h
    exact Text.digitsOf_ne_nil 10 n (List.map_eq_nil_iff.1 h)

theorem idStr_word (n : Int) : Word (RefManager.idStr n) := by
  unfold RefManager.idStr Text.intStr
  have h := decStr_word n.natAbs
  constructor
  · rw [String.toList_ofList]
    split
    · simp [h.1]
    · exact h.1
  · intro he
    have h2 := congrArg String.toList he
    rw [String.toList_ofList] at h2
    split at h2
    · simp at h2
    · exact h.2 h2

theorem ids_loop {valid : String → Bool} {ins : List (String × String)} (l : List (String × Ref))
    {s s' : RefManager × List (String × String)} (hs : IdsOk s.1) (hl : ∀ p ∈ l, Word p.1)
    (h : forEach (refStep valid ins) s l = (s', .ok ())) : IdsOk s'.1 := by
  induction l generalizing s with
  | nil =>
    simp only [forEach, Prod.mk.injEq, and_true] at h
    rw [← h]; exact hs
  | cons p l ih =>
    obtain ⟨s1, h1, h2⟩ := forEach_cons_ok h
    refine ih ?_ (fun q hq => hl q (by simp [hq])) h2
    unfold refStep at h1
    split at h1
    · split at h1
      · split at h1
        · simp at h1
        · rename_i m x ha
          simp only [Prod.mk.injEq, and_true] at h1
          rw [← h1]
          unfold RefManager.addReference at ha
          dsimp only at ha
          split at ha
          · simp at ha
          · split at ha
            · simp at ha
            · simp only [Except.ok.injEq, Prod.mk.injEq] at ha
              rw [← ha.1]
              intro q hq
              rcases mem_dset hq with rfl | hq
              · exact hl p (by simp)
              · exact hs q hq
      · split at h1
        · simp at h1
        · rename_i m x ha
          simp only [Prod.mk.injEq, and_true] at h1
          rw [← h1]
          unfold RefManager.addReference at ha
          simp only [Except.ok.injEq, Prod.mk.injEq] at ha
          rw [← ha.1]
          intro q hq
          rcases mem_dset hq with rfl | hq
          · exact idStr_word _
          · exact hs q hq
    · simp only [Prod.mk.injEq, and_true] at h1
      rw [← h1]; exact hs

/-! ### The set -/

/-- The loop over the LGRs. -/
structure SInv (D W : Prop) (done : List Input) (s : SState) : Prop where
  inv : MInv D done s.m.lgr
  maps : ∀ p ∈ s.maps, p.1 ∈ done.map Input.script
  ids : W → IdsOk s.m.lgr.refs

theorem mergeOne_spec {ord : SetOrder} {valid : String → Bool} {D W : Prop} {done : List Input}
    {s s' : SState} {i : Input} (h0 : SInv D W done s) (hi : Good i)
    (hd : D → i.script ∉ done.map Input.script) (hw : W → IdsOk i.lgr.refs)
    (h : mergeOne ord valid s i = (s', .ok ())) : SInv D W (done ++ [i]) s' := by
  unfold mergeOne at h
  generalize he : i.lgr.expandRanges i.db = r at h
  obtain ⟨g, o⟩ := r
  cases o with
  | error e => simp at h
  | ok u =>
    obtain ⟨e1, e2, -, e4⟩ := C30.expanded hi.wf hi.intact he
    dsimp only at h
    generalize hm : mergeReferences valid g.refs s.m.lgr.refs ((dget s.maps i.script).getD []) = r at h
    obtain ⟨⟨rm, map⟩, o⟩ := r
    cases o with
    | error e => simp at h
    | ok u =>
      dsimp only at h
      rw [e2] at hm
      generalize hc : mergeChars ord i g map s.prev { s.m with lgr := { s.m.lgr with refs := rm } } = r at h
      obtain ⟨m, o⟩ := r
      cases o with
      | error e => simp at h
      | ok u =>
        simp only [Prod.mk.injEq, and_true] at h
        obtain ⟨g1, g2⟩ := merge_references_grows valid _ _ h0.inv.refsNodup _ _ _ hm
        have hps : Plain g := by
          intro k c hc
          rw [e4] at hc
          cases hl : i.lgr.rep.lookup k with
          | none => rw [hl] at hc; simp at hc
          | some d => rw [hl] at hc; simp at hc; rw [← hc]; rfl
        have hr := mergeChars_spec (m := { s.m with lgr := { s.m.lgr with refs := rm } }) e1 hps h0.inv.wf
          h0.inv.plain hc
        have hf : D → Faithful i.lgr.refs rm (mapRef map) := by
          intro hD
          have hnone : dget s.maps i.script = none := by
            refine dget_eq_none.2 fun hm => ?_
            obtain ⟨p, hp, hp'⟩ := List.mem_map.1 hm
            exact hd hD (hp' ▸ h0.maps p hp)
          rw [hnone] at hm
          exact (merge_references_faithful valid _ _ hi.refs h0.inv.refsNodup _ _ hm).2.1
        rw [← h]
        refine ⟨minv_step h0.inv e4 g1 g2 hf hr, ?_, ?_⟩
        · intro p hp
          rcases mem_dset hp with rfl | hp
          · simp
          · have := h0.maps p hp
            rw [List.map_append]
            exact List.mem_append_left _ this
        · intro hW
          have h1 : m.lgr.refs = rm := hr.refs
          show IdsOk m.lgr.refs
          rw [h1]
          exact ids_loop _ (h0.ids hW) (hw hW) hm

theorem mergeLoop_spec {ord : SetOrder} {valid : String → Bool} {D W : Prop} (l : List Input) :
    ∀ (done : List Input) (s s' : SState), SInv D W done s → (∀ i ∈ l, Good i) →
      (D → ((done ++ l).map Input.script).Nodup) → (W → ∀ i ∈ l, IdsOk i.lgr.refs) →
      forEach (mergeOne ord valid) s l = (s', .ok ()) → SInv D W (done ++ l) s' := by
  induction l with
  | nil =>
    intro done s s' h0 _ _ _ h
    simp only [forEach, Prod.mk.injEq, and_true] at h
    rw [← h]; simpa using h0
  | cons i l ih =>
    intro done s s' h0 hg hD hW h
    obtain ⟨s1, h1, h2⟩ := forEach_cons_ok h
    have := ih (done ++ [i]) s1 s' (mergeOne_spec h0 (hg i (by simp)) (by
        intro hd hm
        have := hD hd
        rw [List.map_append, List.map_cons, List.nodup_append] at this
        exact this.2.2 _ hm _ (by simp) rfl) (fun hw => hW hw i (by simp)) h1)
      (fun j hj => hg j (by simp [hj])) (by simpa using hD) (fun hw j hj => hW hw j (by simp [hj])) h2
    simpa using this

theorem MInv.perm {D : Prop} {l l' : List Input} {g : LGR} (h : MInv D l g) (hp : l.Perm l') :
    MInv D l' g where
  wf := h.wf
  plain := h.plain
  refsNodup := h.refsNodup
  node k := by rw [h.node]; simp only [hp.mem_iff]
  tags k e he := ⟨(h.tags k e he).1, fun t => by rw [(h.tags k e he).2]; simp only [hp.mem_iff]⟩
  has i hi := h.has i (hp.mem_iff.2 hi)
  kind k u hu := by
    have := h.kind k u hu
    have he : ∀ x y, PairIn l x y → PairIn l' x y := by
      rintro x y ⟨j, hj, h⟩; exact ⟨j, hp.mem_iff.1 hj, h⟩
    rcases this with ⟨i, hi, h⟩ | ⟨h1, h2, h3⟩
    · exact .inl ⟨i, hp.mem_iff.1 hi, h⟩
    · exact .inr ⟨h1, eqv_mono he h2, h3⟩
  single i l1 k c e h1 := h.single i l1 k c e (h1.trans hp.symm)

theorem mergeAll_spec {ord : SetOrder} {valid : String → Bool} {l : List Input} {s : SState}
    (hg : ∀ i ∈ l, Good i) (h : mergeAll ord valid l = (s, .ok ())) :
    MInv (l.map Input.script).Nodup l s.m.lgr ∧ ((∀ i ∈ l, IdsOk i.lgr.refs) → IdsOk s.m.lgr.refs) := by
  have hp : (ordered l).Perm l := sortAsc_perm _ _
  have := mergeLoop_spec (D := (l.map Input.script).Nodup) (W := ∀ i ∈ l, IdsOk i.lgr.refs) (ordered l) []
    {} s ⟨minv_nil _, by simp, fun _ => by intro p hp; exact absurd hp (by simp)⟩
    (fun i hi => hg i (hp.mem_iff.1 hi))
    (fun hd => by simpa using ((hp.map Input.script).nodup_iff).2 hd)
    (fun hw i hi => hw i (hp.mem_iff.1 hi)) h
  exact ⟨(this.inv.perm (by simpa using hp)), this.ids⟩

/-! ### The result -/

/-- Further: the references cited are defined, identifiers and tags are words. -/
structure Clean (i : Input) : Prop where
  ids : IdsOk i.lgr.refs
  tags : ∀ k c t, i.lgr.rep.lookup k = some c → TagOf i c t → Word t
  refs : ∀ k c, i.lgr.rep.lookup k = some c → ∀ r ∈ c.attrs.refs, (C11.view i.lgr.refs r).isSome = true
  varRefs : ∀ k v, Maps i.lgr k v → ∀ r ∈ v.refs, (C11.view i.lgr.refs r).isSome = true

theorem mapped_words {m src : RefManager} {f : String → String} {rs : List String} (hi : IdsOk m)
    (hf : Faithful src m f) (hr : ∀ r ∈ rs, (C11.view src r).isSome = true) : kept m (rs.map f) = rs.map f := by
  have key : ∀ w ∈ rs.map f, ∃ y, dget m.refs w = some y := by
    intro w hw
    obtain ⟨r, hr', rfl⟩ := List.mem_map.1 hw
    obtain ⟨x, hx⟩ := Option.isSome_iff_exists.1 (hr r hr')
    obtain ⟨y, hy, -⟩ := hf r x hx
    exact ⟨y, hy⟩
  refine kept_words (words_of fun w hw => ?_) fun w hw => ?_
  · obtain ⟨y, hy⟩ := key w hw
    exact hi _ (mem_of_dget hy)
  · obtain ⟨y, hy⟩ := key w hw
    rw [hy]; rfl

theorem minv_reread {D : Prop} {l : List Input} {g h : LGR} (hD : D) (hc : ∀ i ∈ l, Clean i)
    (hi : IdsOk g.refs) (h0 : MInv D l g) (hr : Reread g h) : MInv True l h := by
  have hrefs := hr.refs
  have hback : ∀ {k u}, Maps h k u → ∃ w, Maps g k w ∧ u = again g.refs w := by
    rintro k u ⟨d, hd, hu⟩
    obtain ⟨c, hc, ha⟩ := hr.entry k d hd
    obtain ⟨w, hw, rfl⟩ := (ha.vars u).1 hu
    exact ⟨w, ⟨c, hc, hw⟩, rfl⟩
  have hfwd : ∀ {k w}, Maps g k w → Maps h k (again g.refs w) := by
    rintro k w ⟨c, hc, hw⟩
    obtain ⟨d, hd⟩ := (hr.node k).2 ⟨c, hc⟩
    obtain ⟨c', hc', ha⟩ := hr.entry k d hd
    rw [hc] at hc'; cases hc'
    exact ⟨d, hd, (ha.vars _).2 ⟨w, hw, rfl⟩⟩
  refine ⟨hr.wf, hr.plain, by rw [hrefs]; exact h0.refsNodup, ?_, ?_, ?_, ?_, ?_⟩
  · intro k; rw [hr.node, h0.node]
  · intro k d hd
    obtain ⟨c, hcl, ha⟩ := hr.entry k d hd
    obtain ⟨t1, t2⟩ := h0.tags k c hcl
    have hw : reSplit c.attrs.tags = c.attrs.tags := by
      refine reSplit_words (words_of fun w hw => ?_)
      obtain ⟨i, him, c', hc', ht⟩ := (t2 w).1 hw
      exact (hc i him).tags k c' w hc' ht
    rw [ha.attrs]
    dsimp only
    rw [hw]
    exact ⟨t1, t2⟩
  · intro i him k v hv
    obtain ⟨u, h1, h2⟩ := h0.has i him k v hv
    exact ⟨again g.refs u, hfwd h1, h2⟩
  · intro k u hu
    obtain ⟨w, hw, rfl⟩ := hback hu
    rcases h0.kind k w hw with ⟨i, him, v, f, h1, rfl, h3⟩ | ⟨h1, h2, v, h3, h4⟩
    · refine .inl ⟨i, him, v, f, h1, ?_, fun _ => by rw [hrefs]; exact h3 hD⟩
      unfold again ren
      dsimp only
      rw [mapped_words hi (h3 hD) ((hc i him).varRefs k v h1)]
    · refine .inr ⟨?_, h2, again g.refs v, hfwd h3, h4⟩
      rw [h1]
      rfl
  · intro i l' k c e hp hcl hno he
    obtain ⟨o, ho, ha⟩ := hr.entry k e he
    obtain ⟨⟨f, s1, s2⟩, s3, s4, s5⟩ := h0.single i l' k c o hp hcl hno ho
    rw [ha.attrs]
    refine ⟨⟨f, fun _ => by rw [hrefs]; exact s1 hD, ?_⟩, s3, s4, s5⟩
    dsimp only
    rw [s2, mapped_words hi (s1 hD) ((hc i (hp.mem_iff.1 (by simp))).refs k c hcl)]

theorem mergeSet_ok {ord : SetOrder} {valid : String → Bool} {l : List Input} {m : LGR}
    (hg : ∀ i ∈ l, Good i) (h : mergeSet ord valid l = .ok m) : ∃ g, MInv (l.map Input.script).Nodup l g ∧
      ((∀ i ∈ l, IdsOk i.lgr.refs) → IdsOk g.refs) ∧ Reread g m := by
  unfold mergeSet at h
  split at h
  · simp at h
  · rename_i s hs
    obtain ⟨h1, h2⟩ := mergeAll_spec hg hs
    exact ⟨s.m.lgr, h1, h2, reread_spec h1.wf h1.plain h⟩

/-- **C45** The code points of the merge are those of the LGRs. -/
theorem merge_code_points (ord : SetOrder) (valid : String → Bool) (l : List Input) (hg : ∀ i ∈ l, Good i)
    (m : LGR) (h : mergeSet ord valid l = .ok m) (k : Seq) : In m k ↔ ∃ i ∈ l, In i.lgr k := by
  obtain ⟨g, h1, -, h3⟩ := mergeSet_ok hg h
  rw [h3.node, h1.node]

/-- **C45, partial** Every variant of every LGR is in the merge, blocked, with its contexts prefixed by the
script, or else with the very contexts it had. Missing: which of the two. -/
theorem merge_variants_partial (ord : SetOrder) (valid : String → Bool) (l : List Input)
    (hg : ∀ i ∈ l, Good i) (m : LGR) (h : mergeSet ord valid l = .ok m) (i : Input) (hi : i ∈ l) (k : Seq)
    (v : Variant) (hv : Maps i.lgr k v) : ∃ u, Maps m k u ∧ u.cp = v.cp ∧ u.type = some "blocked" ∧
      (u.whenR = v.whenR ∧ u.notWhenR = v.notWhenR ∨
        u.whenR = preRule i.script v.whenR ∧ u.notWhenR = preRule i.script v.notWhenR) := by
  obtain ⟨g, h1, -, h3⟩ := mergeSet_ok hg h
  obtain ⟨u, ⟨c, hc, hu⟩, e1, e2⟩ := h1.has i hi k v hv
  obtain ⟨d, hd⟩ := (h3.node k).2 ⟨c, hc⟩
  obtain ⟨c', hc', ha⟩ := h3.entry k d hd
  rw [hc] at hc'; cases hc'
  refine ⟨again g.refs u, ⟨d, hd, (ha.vars _).2 ⟨u, hu, rfl⟩⟩, e1, ?_, e2⟩
  rcases h1.kind k u ⟨c, hc, hu⟩ with ⟨j, -, w, f, -, rfl, -⟩ | ⟨hu, -, -⟩
  · rfl
  · rw [hu]; rfl

/-- **C45** Every variant of the merge is blocked and is a variant of one of the LGRs, with its comment and
with its contexts prefixed by the script, or was added between members of one variant set. -/
theorem merge_no_other_variants (ord : SetOrder) (valid : String → Bool) (l : List Input)
    (hg : ∀ i ∈ l, Good i) (m : LGR) (h : mergeSet ord valid l = .ok m) (k : Seq) (u : Variant)
    (hu : Maps m k u) : u.type = some "blocked" ∧
      ((∃ i ∈ l, ∃ v, Maps i.lgr k v ∧ u.cp = v.cp ∧ u.comment = v.comment ∧
          u.whenR = preRule i.script v.whenR ∧ u.notWhenR = preRule i.script v.notWhenR) ∨
        u = ⟨u.cp, some "blocked", none, none, some "New variant for merge to keep transitivity", []⟩ ∧
          EqvGen (PairIn l) k u.cp) := by
  obtain ⟨g, h1, -, h3⟩ := mergeSet_ok hg h
  obtain ⟨d, hd, hu⟩ := hu
  obtain ⟨c, hc, ha⟩ := h3.entry k d hd
  obtain ⟨w, hw, rfl⟩ := (ha.vars u).1 hu
  rcases h1.kind k w ⟨c, hc, hw⟩ with ⟨j, hj, v, f, hv, rfl, -⟩ | ⟨hu, he, -⟩
  · exact ⟨rfl, .inl ⟨j, hj, v, hv, rfl, rfl, rfl, rfl⟩⟩
  · refine ⟨by rw [hu]; rfl, .inr ⟨?_, he⟩⟩
    rw [hu]; rfl

/-- No context of a variant has a name that the merge could have made. -/
def Distinct (l : List Input) : Prop := ∀ i ∈ l, ∀ k v, Maps i.lgr k v → ∀ j ∈ l, ∀ r,
  v.whenR ≠ some (j.script ++ "-" ++ r) ∧ v.notWhenR ≠ some (j.script ++ "-" ++ r)

/-- **C45** Every variant of every LGR is in the merge, blocked, with its contexts prefixed by the script, if
no name of a context begins with the prefix of a script of the set. -/
theorem merge_variants (ord : SetOrder) (valid : String → Bool) (l : List Input)
    (hg : ∀ i ∈ l, Good i) (hd : Distinct l) (m : LGR) (h : mergeSet ord valid l = .ok m) (i : Input)
    (hi : i ∈ l) (k : Seq) (v : Variant) (hv : Maps i.lgr k v) :
    ∃ u, Maps m k u ∧ u.cp = v.cp ∧ u.type = some "blocked" ∧
      u.whenR = preRule i.script v.whenR ∧ u.notWhenR = preRule i.script v.notWhenR := by
  obtain ⟨u, h1, h2, h3, h4⟩ := merge_variants_partial ord valid l hg m h i hi k v hv
  rcases h4 with ⟨h4, h5⟩ | h4
  · refine ⟨u, h1, h2, h3, ?_⟩
    have key : ∀ (a b : Option String) (s : String), a = preRule s b → (∀ r, a ≠ some (s ++ "-" ++ r)) →
        a = none := by
      intro a b s hab hn
      cases b with
      | none => exact hab
      | some r =>
        by_cases hr : r = ""
        · rw [hab]; simp [preRule, hr]
        · refine absurd ?_ (hn r)
          rw [hab]; simp [preRule, pre, hr]
    have hn : u.whenR = none ∧ u.notWhenR = none := by
      rcases (merge_no_other_variants ord valid l hg m h k u h1).2 with ⟨j, hj, w, -, -, -, e1, e2⟩ | ⟨hu, -⟩
      · have := hd i hi k v hv j hj
        exact ⟨key _ _ _ e1 (fun r => by rw [h4]; exact (this r).1),
          key _ _ _ e2 (fun r => by rw [h5]; exact (this r).2)⟩
      · rw [hu]; exact ⟨rfl, rfl⟩
    rw [← h4, ← h5, hn.1, hn.2]
    exact ⟨rfl, rfl⟩
  · exact ⟨u, h1, h2, h3, h4⟩

/-- **C97** The variant sets of the merge are those generated by the variants of the LGRs together. -/
theorem merge_variant_sets (ord : SetOrder) (valid : String → Bool) (l : List Input)
    (hg : ∀ i ∈ l, Good i) (m : LGR) (h : mergeSet ord valid l = .ok m) (x y : Seq) :
    EqvGen (Pair m) x y ↔ EqvGen (PairIn l) x y := by
  constructor
  · intro he
    induction he with
    | rel x y hp =>
      obtain ⟨u, hu, rfl⟩ := hp
      rcases (merge_no_other_variants ord valid l hg m h x u hu).2 with ⟨j, hj, w, hw, e, -⟩ | ⟨-, he⟩
      · exact .rel _ _ ⟨j, hj, w, hw, e.symm⟩
      · exact he
    | refl x => exact .refl x
    | symm x y _ ih => exact ih.symm
    | trans x y z _ _ ih1 ih2 => exact ih1.trans _ _ _ ih2
  · refine eqv_mono ?_
    rintro x y ⟨i, hi, v, hv, rfl⟩
    obtain ⟨u, h1, h2, -⟩ := merge_variants_partial ord valid l hg m h i hi x v hv
    exact ⟨u, h1, h2⟩

/-- **C97** The variants of the merge are symmetric if those of the LGRs are. -/
theorem merge_symmetric (ord : SetOrder) (valid : String → Bool) (l : List Input)
    (hg : ∀ i ∈ l, Good i) (hs : ∀ i ∈ l, ∀ x y, Pair i.lgr x y → Pair i.lgr y x) (m : LGR)
    (h : mergeSet ord valid l = .ok m) (x y : Seq) (hp : Pair m x y) : Pair m y x := by
  obtain ⟨g, h1, -, h3⟩ := mergeSet_ok hg h
  have hfwd : ∀ {a b}, Pair g a b → Pair m a b := by
    rintro a b ⟨w, ⟨c, hc, hw⟩, rfl⟩
    obtain ⟨d, hd⟩ := (h3.node a).2 ⟨c, hc⟩
    obtain ⟨c', hc', ha⟩ := h3.entry a d hd
    rw [hc] at hc'; cases hc'
    exact ⟨again g.refs w, ⟨d, hd, (ha.vars _).2 ⟨w, hw, rfl⟩⟩, rfl⟩
  obtain ⟨u, ⟨d, hd, hu⟩, rfl⟩ := hp
  obtain ⟨c, hc, ha⟩ := h3.entry x d hd
  obtain ⟨w, hw, rfl⟩ := (ha.vars u).1 hu
  rcases h1.kind x w ⟨c, hc, hw⟩ with ⟨j, hj, v, f, hv, rfl, -⟩ | ⟨-, -, hp⟩
  · obtain ⟨v', hv', he⟩ := hs j hj x v.cp ⟨v, hv, rfl⟩
    obtain ⟨u', e1, e2, -⟩ := merge_variants_partial ord valid l hg m h j hj _ v' hv'
    exact ⟨u', e1, e2.trans he⟩
  · exact hfwd hp

/-- **C95** The tags of a code point of the merge are, each once, the tags it has in the LGRs, prefixed by the
script unless they contain a colon, and the script extensions. -/
theorem merge_tags (ord : SetOrder) (valid : String → Bool) (l : List Input) (hg : ∀ i ∈ l, Good i)
    (ht : ∀ i ∈ l, ∀ k c t, i.lgr.rep.lookup k = some c → TagOf i c t → Word t) (m : LGR)
    (h : mergeSet ord valid l = .ok m) (k : Seq) (e : CharObj) (he : m.rep.lookup k = some e) :
    e.attrs.tags.Nodup ∧ ∀ t, t ∈ e.attrs.tags ↔ ∃ i ∈ l, ∃ c, i.lgr.rep.lookup k = some c ∧
      ((∃ x ∈ c.attrs.tags, t = if ':' ∈ x.toList then x else i.script ++ "-" ++ x) ∨
        ∃ a, c.cp = [a] ∧ i.db.isSome = true ∧ t ∈ i.scx a) := by
  obtain ⟨g, h1, -, h3⟩ := mergeSet_ok hg h
  obtain ⟨c, hc, ha⟩ := h3.entry k e he
  obtain ⟨t1, t2⟩ := h1.tags k c hc
  have hw : reSplit c.attrs.tags = c.attrs.tags := by
    refine reSplit_words (words_of fun w hw => ?_)
    obtain ⟨i, him, c', hc', h'⟩ := (t2 w).1 hw
    exact ht i him k c' w hc' h'
  rw [ha.attrs]
  dsimp only
  rw [hw]
  exact ⟨t1, t2⟩

/-- **C94, partial** A code point that is in one of the LGRs only has the comment it had, references with the
texts of those it had and contexts prefixed by the script. Missing: code points of several LGRs. -/
theorem merge_single_partial (ord : SetOrder) (valid : String → Bool) (l : List Input) (i : Input)
    (l' : List Input) (hp : l.Perm (i :: l')) (hg : ∀ i ∈ l, Good i) (hc : ∀ i ∈ l, Clean i)
    (hd : (l.map Input.script).Nodup) (m : LGR) (h : mergeSet ord valid l = .ok m) (k : Seq) (c e : CharObj)
    (hk : i.lgr.rep.lookup k = some c) (hn : ∀ j ∈ l', ¬ In j.lgr k) (he : m.rep.lookup k = some e) :
    (∃ f, (∀ r x, C11.view i.lgr.refs r = some x → ∃ y, C11.view m.refs (f r) = some y ∧ y.value = x.value) ∧
        e.attrs.refs = c.attrs.refs.map f) ∧
      e.attrs.comment = c.attrs.comment ∧ e.attrs.whenR = preRule i.script c.attrs.whenR ∧
      e.attrs.notWhenR = preRule i.script c.attrs.notWhenR := by
  obtain ⟨g, h1, h2, h3⟩ := mergeSet_ok hg h
  have h4 := minv_reread hd hc (h2 fun i hi => (hc i hi).ids) h1 h3
  obtain ⟨⟨f, s1, s2⟩, s3⟩ := h4.single i l' k c e hp.symm hk hn he
  exact ⟨⟨f, s1 trivial, s2⟩, s3⟩

/-- **C94** The references of a variant of the merge have the texts of those of the variant that it comes
from. -/
theorem merge_variant_references (ord : SetOrder) (valid : String → Bool) (l : List Input)
    (hg : ∀ i ∈ l, Good i) (hc : ∀ i ∈ l, Clean i) (hd : (l.map Input.script).Nodup) (m : LGR)
    (h : mergeSet ord valid l = .ok m) (k : Seq) (u : Variant) (hu : Maps m k u) :
    u.refs = [] ∨ ∃ i ∈ l, ∃ v f, Maps i.lgr k v ∧ u.cp = v.cp ∧
      (∀ r x, C11.view i.lgr.refs r = some x → ∃ y, C11.view m.refs (f r) = some y ∧ y.value = x.value) ∧
      u.refs = v.refs.map f := by
  obtain ⟨g, h1, h2, h3⟩ := mergeSet_ok hg h
  have h4 := minv_reread hd hc (h2 fun i hi => (hc i hi).ids) h1 h3
  rcases h4.kind k u hu with ⟨i, hi, v, f, hv, rfl, hf⟩ | ⟨hu, -, -⟩
  · exact .inr ⟨i, hi, v, f, hv, rfl, hf trivial, rfl⟩
  · rw [hu]; exact .inl rfl

end Lgr.Props.C45
