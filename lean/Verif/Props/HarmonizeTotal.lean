import Verif.Props.Harmonize
import Verif.Props.PopulateTotal

/-!
# C46: when harmonising does not raise
-/

namespace Lgr.Props.C46
open Lgr LGR Repertoire C50 C26 C28 Compare Populate Harmonize

/-- No variant has an empty rule name, two rules, or an unknown or repeated reference. -/
structure Clean (g : LGR) : Prop where
  rules : ∀ x v, Maps g x v → v.whenR ≠ some "" ∧ v.notWhenR ≠ some "" ∧
    (v.whenR = none ∨ v.notWhenR = none)
  refs : ∀ x v, Maps g x v → (∀ i ∈ v.refs, (dget g.refs.refs i).isSome = true) ∧ v.refs.Nodup

/-- Code points are not checked against IDNA. -/
def Lenient (db : UniDb) (g : LGR) : Prop := g.raiseInvalid = true → db = none

theorem Lenient.idna {db : UniDb} {g : LGR} (h : Lenient db g) (s : Seq) : IdnaOk db g s := by
  intro hr v hv
  rw [h hr] at hv; cases hv

theorem Lenient.keeps {db : UniDb} {g p : LGR} (h : Lenient db g) (hr : p.raiseInvalid = g.raiseInvalid) :
    Lenient db p := by unfold Lenient at *; rw [hr]; exact h

theorem clean_tidy {db : UniDb} {g : LGR} (hc : Clean g) (hl : Lenient db g) (hp : Plain g) : C28.Tidy db g :=
  ⟨hc.rules, hc.refs, fun _ _ _ => ⟨hl.idna _, hl.idna _⟩, fun _ _ _ _ h => hp _ _ h⟩

theorem tidy_clean {db : UniDb} {g : LGR} (h : C28.Tidy db g) : Clean g := ⟨h.rules, h.refs⟩

theorem stage_plain {g0 g : LGR} {D : Seq → Seq → Prop} (hs : Stage g0 D g) (hp : Plain g0) : Plain g := by
  intro k c hc
  cases h0 : g0.rep.lookup k with
  | none => exact (hs.fresh k c h0 hc).2
  | some d =>
    obtain ⟨c', h1, -, h2⟩ := hs.keep k d h0
    rw [hc] at h1; cases h1
    rw [h2]; exact hp k d h0

theorem stage_clean {g0 g : LGR} {D : Seq → Seq → Prop} (hs : Stage g0 D g) (hc : Clean g0) : Clean g := by
  constructor
  · intro x v hv
    rcases (hs.maps x v).1 hv with h | ⟨-, -, h⟩ | ⟨-, -, h⟩
    · exact hc.rules x v h
    · rw [h]; simp
    · rw [h]; simp
  · intro x v hv
    rw [hs.refs]
    rcases (hs.maps x v).1 hv with h | ⟨-, -, h⟩ | ⟨-, -, h⟩
    · exact hc.refs x v h
    · rw [h]; simp
    · rw [h]; simp

/-- The calls the loops make return. -/
theorem addVar_plain {db : UniDb} {g : LGR} (hwf : WF g.rep) (hl : Lenient db g) {s v : Seq}
    {c : CharObj} {type comment : Option String} (hs : g.rep.lookup s = some c) (hr : c.range = none)
    (hv : v ≠ []) (hno : ∀ u, Maps g s u → u.cp ≠ v) :
    ∃ g', g.addVariant db (.seq s) (.seq v) type { comment := comment } = (g', .ok ()) := by
  have hse : s ≠ [] := by rintro rfl; simp [lookup] at hs
  have hok := (add_variant_ok_iff db g hwf (.seq s) (.seq v) type { comment := comment }).2
    ⟨s, v, c, .seq s hse, hl.idna _, .seq v hv, hl.idna _, (by intro k hk; cases hk), hs, hr,
      (by rintro ⟨u, hu, hk⟩; exact hno u ⟨c, hs, hu⟩ (congrArg Prod.fst hk)),
      fun _ => ⟨.inl rfl, by simp [RefsOk]⟩⟩
  exact ⟨_, Prod.ext rfl hok⟩

theorem addMissing_total {db : UniDb} {g0 g : LGR} {D : Seq → Seq → Prop} (hs : Stage g0 D g)
    (hl : Lenient db g0) (hp : Plain g0) {cp v : Seq} (hcp : In g0 cp) (hv : v ≠ [])
    (hno : ¬ Pair g cp v) : ∃ g', addMissing db cp g v = (g', .ok ()) := by
  have hlg : Lenient db g := hl.keeps hs.raise
  have hpg := stage_plain hs hp
  have hcpg : In g cp := (hs.inn cp).2 (.inl hcp)
  unfold addMissing
  split
  · rename_i hn
    have hln : g.rep.lookup v = none := by
      cases h : g.rep.lookup v with
      | none => rfl
      | some c =>
        have := (hasCp_iff g.rep v).2 (by rw [h]; rfl)
        rw [hn] at this; cases this
    have hok : (g.addCp db (.seq v) { comment := some "Out-of-repertoire" }).2 = .ok () :=
      (add_cp_ok_iff db g _ _).2 ⟨v, .seq _ hv, hlg.idna _, (by intro k hk; cases hk), hln,
        fun _ => ⟨⟨.inl rfl, by simp [RefsOk]⟩, by simp [StrictTags]⟩⟩
    generalize h1 : g.addCp db (.seq v) { comment := some "Out-of-repertoire" } = r at hok
    obtain ⟨g1, r⟩ := r
    simp only at hok
    subst hok
    dsimp only
    obtain ⟨w1, -, r1, q1, l1⟩ := addCp_oor hs.wf h1
    have hl1 : Lenient db g1 := hlg.keeps q1
    have hv1 : g1.rep.lookup v = some { cp := v, attrs := { comment := oor } } := by
      rw [l1, if_pos rfl]
    obtain ⟨g2, h2⟩ := addVar_plain (type := some "out-of-repertoire")
      (comment := some "Out-of-repertoire") w1 hl1 hv1 rfl hv (by
        rintro u ⟨c, hc, hu⟩ -
        rw [hv1] at hc; cases hc
        simp [CharObj.getVariants, sortAsc] at hu)
    rw [h2]
    dsimp only
    obtain ⟨f2, -, i2, -, m2⟩ := addVar_step w1 h2
    have hne : v ≠ cp := by
      rintro rfl
      obtain ⟨c, hc⟩ := hcpg
      rw [hln] at hc; cases hc
    obtain ⟨c, hc⟩ := hcpg
    have hc1 : g1.rep.lookup cp = some c := by rw [l1, if_neg (Ne.symm hne)]; exact hc
    obtain ⟨c2, hc2, -, hr2⟩ := f2.keep _ _ hc1
    obtain ⟨g3, h3⟩ := addVar_plain (type := some "blocked") (comment := none) f2.wf
      (hl1.keeps f2.raise) hc2 (by rw [hr2]; exact hpg _ _ hc) hv (by
        rintro u hu rfl
        rcases (m2 cp u).1 hu with ⟨d, hd, hu'⟩ | ⟨h, -⟩
        · rw [hc1] at hd; cases hd
          exact hno ⟨u, ⟨c, hc, hu'⟩, rfl⟩
        · exact hne h.symm)
    exact ⟨g3, h3⟩
  · split
    · exact ⟨g, rfl⟩
    · obtain ⟨c, hc⟩ := hcpg
      exact addVar_plain (comment := none) hs.wf hlg hc (hpg _ _ hc) hv
        (by rintro u hu rfl; exact hno ⟨u, hu, rfl⟩)

theorem forMissing_total {db : UniDb} {g0 : LGR} (hl : Lenient db g0) (hp : Plain g0) {cp : Seq}
    (hcp : In g0 cp) : ∀ (vs : List Seq) {g : LGR} {D : Seq → Seq → Prop}, Stage g0 D g → vs.Nodup →
    (∀ v ∈ vs, v ≠ [] ∧ ¬ Pair g0 cp v ∧ ¬ D cp v) →
    ∃ g', forEach (addMissing db cp) g vs = (g', .ok ()) := by
  intro vs
  induction vs with
  | nil => intro g D _ _ _; exact ⟨g, rfl⟩
  | cons v vs ih =>
    intro g D hs hnd hvs
    obtain ⟨h1, h2, h3⟩ := hvs v (by simp)
    obtain ⟨g1, e1⟩ := addMissing_total hs hl hp hcp h1 (by
      rintro ⟨u, hu, rfl⟩
      rcases (hs.maps cp u).1 hu with h | ⟨h, -⟩ | ⟨h, -⟩
      · exact h2 ⟨u, h, rfl⟩
      · exact h3 h
      · exact h hcp)
    rw [List.nodup_cons] at hnd
    obtain ⟨g2, e2⟩ := ih (addMissing_stage hs hcp e1) hnd.2 (fun w hw => by
      obtain ⟨k1, k2, k3⟩ := hvs w (by simp [hw])
      refine ⟨k1, k2, ?_⟩
      rintro (h | ⟨-, rfl⟩)
      · exact k3 h
      · exact hnd.1 hw)
    exact ⟨g2, by simp only [forEach]; rw [e1]; exact e2⟩

theorem step_total {ord : SetOrder} {db1 db2 : UniDb} {a0 b0 : LGR} {L : List Seq}
    {s : LGR × LGR} {cp : Seq} (hn : cp ∉ L) (ha : In a0 cp) (hb : In b0 cp)
    (hwa : WF a0.rep) (hwb : WF b0.rep)
    (la : Lenient db1 a0) (lb : Lenient db2 b0) (pa : Plain a0) (pb : Plain b0)
    (h1 : Stage a0 (Miss a0 b0 L) s.1) (h2 : Stage b0 (Miss b0 a0 L) s.2) :
    ∃ s', Harmonize.step ord db1 db2 s cp = (s', .ok ()) := by
  obtain ⟨c1, hc1⟩ := (h1.inn cp).2 (.inl ha)
  obtain ⟨c2, hc2⟩ := (h2.inn cp).2 (.inl hb)
  have v1 : ∀ y, y ∈ variantCps c1 ↔ Pair a0 cp y := fun y =>
    (mem_variantCps hc1 y).trans (stage_pair h1 hn ha y)
  have v2 : ∀ y, y ∈ variantCps c2 ↔ Pair b0 cp y := fun y =>
    (mem_variantCps hc2 y).trans (stage_pair h2 hn hb y)
  have pne : ∀ {g : LGR} {x y : Seq}, WF g.rep → Pair g x y → y ≠ [] := by
    rintro g x y hw ⟨u, hu, rfl⟩; exact maps_ne hw hu
  unfold Harmonize.step
  rw [C30.getChar_total hc1 ((la.keeps h1.raise).idna _)]
  dsimp only
  rw [C30.getChar_total hc2 ((lb.keeps h2.raise).idna _)]
  dsimp only
  obtain ⟨g2, e2⟩ := forMissing_total lb pb hb
    (ord.seqs ((variantCps c1).filter (fun v => v ∉ variantCps c2))) h2
    (((ord.seqs_perm _).nodup_iff).2 ((C30.nodup_toSet _).filter _)) (fun v hv => by
      rw [(ord.seqs_perm _).mem_iff] at hv
      simp only [List.mem_filter, decide_eq_true_eq, v1, v2] at hv
      exact ⟨pne hwa hv.1, hv.2, fun h => hn h.1⟩)
  obtain ⟨g1, e1⟩ := forMissing_total la pa ha
    (ord.seqs ((variantCps c2).filter (fun v => v ∉ variantCps c1))) h1
    (((ord.seqs_perm _).nodup_iff).2 ((C30.nodup_toSet _).filter _)) (fun v hv => by
      rw [(ord.seqs_perm _).mem_iff] at hv
      simp only [List.mem_filter, decide_eq_true_eq, v1, v2] at hv
      exact ⟨pne hwb hv.1, hv.2, fun h => hn h.1⟩)
  rw [e2]
  dsimp only
  rw [e1]
  exact ⟨_, rfl⟩

theorem loop_total {ord : SetOrder} {db1 db2 : UniDb} {a0 b0 : LGR}
    (hwa : WF a0.rep) (hwb : WF b0.rep)
    (la : Lenient db1 a0) (lb : Lenient db2 b0) (pa : Plain a0) (pb : Plain b0) : ∀ (l L : List Seq)
    {s : LGR × LGR}, (∀ x ∈ l, x ∉ L ∧ In a0 x ∧ In b0 x) → l.Nodup →
    Stage a0 (Miss a0 b0 L) s.1 → Stage b0 (Miss b0 a0 L) s.2 →
    ∃ s', forEach (Harmonize.step ord db1 db2) s l = (s', .ok ()) := by
  intro l
  induction l with
  | nil => intro L s _ _ _ _; exact ⟨s, rfl⟩
  | cons x l ih =>
    intro L s hx hnd h1 h2
    obtain ⟨hn, ha, hb⟩ := hx x (by simp)
    obtain ⟨s1, e1⟩ := step_total (ord := ord) hn ha hb hwa hwb la lb pa pb h1 h2
    obtain ⟨k1, k2⟩ := step_stage hn ha hb h1 h2 e1
    rw [List.nodup_cons] at hnd
    obtain ⟨s2, e2⟩ := ih (x :: L) (fun y hy => ⟨by
      rw [List.mem_cons, not_or]
      refine ⟨?_, (hx y (by simp [hy])).1⟩
      rintro rfl
      exact hnd.1 hy, (hx y (by simp [hy])).2⟩) hnd.2 k1 k2
    exact ⟨s2, by simp only [forEach]; rw [e1]; exact e2⟩

theorem rest_total (ord : SetOrder) {db1 db2 : UniDb} {g1 g2 : LGR} (hw1 : WF g1.rep) (hw2 : WF g2.rep)
    (p1 : Plain g1) (p2 : Plain g2) (l1 : Lenient db1 g1) (l2 : Lenient db2 g2) (c1 : Clean g1)
    (c2 : Clean g2) :
    ∃ n h, (∀ m, n ≤ m → rest ord m db1 db2 g1 g2 = some (.ok h)) ∧ Clean h.g1 ∧ Clean h.g2 := by
  have hL : ∀ x, x ∈ ord.seqs ((cps g2).filter (fun x => x ∈ cps g1)) ↔ In g1 x ∧ In g2 x := by
    intro x
    rw [(ord.seqs_perm _).mem_iff]
    simp only [List.mem_filter, decide_eq_true_eq, C30.mem_cps hw1 p1, C30.mem_cps hw2 p2]
    tauto
  have hnd : (ord.seqs ((cps g2).filter (fun x => x ∈ cps g1))).Nodup := by
    rw [(ord.seqs_perm _).nodup_iff]
    exact (C30.nodup_toSet _).filter _
  obtain ⟨⟨a, b⟩, hl⟩ := loop_total (ord := ord) hw1 hw2 l1 l2 p1 p2 _ [] (s := (g1, g2))
    (fun x hx => ⟨by simp, (hL x).1 hx⟩) hnd
    ((Stage.start hw1).congr (by simp [Miss])) ((Stage.start hw2).congr (by simp [Miss]))
  obtain ⟨s1, s2⟩ := loop_stage _ [] (fun x hx => ⟨by simp, (hL x).1 hx⟩) hnd
    ((Stage.start hw1).congr (by simp [Miss])) ((Stage.start hw2).congr (by simp [Miss])) hl
  obtain ⟨n1, q1, e1, t1⟩ := populate_returns db1 a s1.wf
    (clean_tidy (stage_clean s1 c1) (l1.keeps s1.raise) (stage_plain s1 p1))
  obtain ⟨n2, q2, e2, t2⟩ := populate_returns db2 b s2.wf
    (clean_tidy (stage_clean s2 c2) (l2.keeps s2.raise) (stage_plain s2 p2))
  refine ⟨max n1 n2, ⟨q1, q2, (cps g1).filter (fun x => x ∉ cps g2),
    (cps g2).filter (fun x => x ∉ cps g1)⟩, fun m hm => ?_, tidy_clean t1, tidy_clean t2⟩
  unfold rest
  dsimp only
  rw [hl]
  dsimp only
  rw [e1 m (le_trans (le_max_left _ _) hm)]
  dsimp only
  rw [e2 m (le_trans (le_max_right _ _) hm)]

theorem expand_total {db : UniDb} {g : LGR} (hwf : WF g.rep) (hi : Intact g.rep) (hl : Lenient db g)
    (hc : Clean g) : ∃ e, g.expandRanges db = (e, .ok ()) ∧ Lenient db e ∧ Clean e := by
  have hok := (C06.expand_ranges_ok_iff db g hwf hi).2 (fun f l _ => hl.idna _)
  generalize he : g.expandRanges db = r at hok
  obtain ⟨e, r⟩ := r
  simp only at hok
  subst hok
  obtain ⟨-, h1, h2, h3⟩ := C30.expanded hwf hi he
  have hmaps : ∀ x v, Maps e x v ↔ Maps g x v := by
    intro x v; unfold Maps; rw [h3]
    cases g.rep.lookup x <;> simp [C06.noRange, CharObj.getVariants]
  exact ⟨e, rfl, hl.keeps h2, fun x v hv => hc.rules x v ((hmaps x v).1 hv),
    fun x v hv => by rw [h1]; exact hc.refs x v ((hmaps x v).1 hv)⟩

/-- **C46** `harmonize` returns normally on all LGRs whose code points are not checked against IDNA and
whose variants have no empty rule name, no two rules and no unknown or repeated reference. -/
theorem harmonize_returns (ord : SetOrder) (db1 db2 : UniDb) (g1 g2 : LGR)
    (rz : Option (UniDb × LGR)) (hw1 : WF g1.rep) (hw2 : WF g2.rep) (hi1 : Intact g1.rep)
    (hi2 : Intact g2.rep) (l1 : Lenient db1 g1) (l2 : Lenient db2 g2) (c1 : Clean g1) (c2 : Clean g2)
    (hz : ∀ z ∈ rz, WF z.2.rep ∧ Intact z.2.rep ∧ Lenient z.1 z.2 ∧ Clean z.2) :
    ∃ n h, ∀ m, n ≤ m → harmonize ord m db1 db2 g1 g2 rz = some (.ok h) := by
  obtain ⟨e1, x1, m1, d1⟩ := expand_total hw1 hi1 l1 c1
  obtain ⟨e2, x2, m2, d2⟩ := expand_total hw2 hi2 l2 c2
  obtain ⟨w1, p1, -, -, j1⟩ := expand_keeps hw1 hi1 x1
  obtain ⟨w2, p2, -, -, j2⟩ := expand_keeps hw2 hi2 x2
  unfold harmonize
  rw [x1]
  dsimp only
  rw [x2]
  dsimp only
  cases rz with
  | none =>
    obtain ⟨n, h, hr, -⟩ := rest_total ord w1 w2 p1 p2 m1 m2 d1 d2
    exact ⟨n, h, hr⟩
  | some z =>
    obtain ⟨dbz, z⟩ := z
    obtain ⟨hwz, hiz, lz, cz⟩ := hz _ rfl
    have two : ∀ {db : UniDb} {e : LGR}, WF e.rep → Intact e.rep → Lenient db e → Clean e →
        ∃ n h, (∀ m, n ≤ m → harmonizeTwo ord m db dbz e z = some (.ok h)) ∧ WF h.g1.rep ∧
          Plain h.g1 ∧ Lenient db h.g1 ∧ Clean h.g1 := by
      intro db e we ie le ce
      obtain ⟨e', y1, m1, d1⟩ := expand_total we ie le ce
      obtain ⟨z', y2, m2, d2⟩ := expand_total hwz hiz lz cz
      obtain ⟨w1, p1, -⟩ := expand_keeps we ie y1
      obtain ⟨w2, p2, -⟩ := expand_keeps hwz hiz y2
      obtain ⟨n, h, hr, hc, -⟩ := rest_total ord w1 w2 p1 p2 m1 m2 d1 d2
      obtain ⟨⟨a1, a2, a3, -⟩, -⟩ := rest_spec w1 w2 p1 p2 (hr n le_rfl)
      refine ⟨n, h, fun m hm => ?_, a1, a2, m1.keeps a3.raise, hc⟩
      unfold harmonizeTwo
      rw [y1]
      dsimp only
      rw [y2]
      exact hr m hm
    obtain ⟨n1, h1, r1, a1, a2, a3, a4⟩ := two w1 j1 m1 d1
    obtain ⟨n2, h2, r2, b1, b2, b3, b4⟩ := two w2 j2 m2 d2
    obtain ⟨n3, h, r3, -⟩ := rest_total ord a1 b1 a2 b2 a3 b3 a4 b4
    refine ⟨max (max n1 n2) n3, h, fun m hm => ?_⟩
    dsimp only
    rw [r1 m (le_trans (le_trans (le_max_left _ _) (le_max_left _ _)) hm)]
    dsimp only
    rw [r2 m (le_trans (le_trans (le_max_right _ _) (le_max_left _ _)) hm)]
    exact r3 m (le_trans (le_max_right _ _) hm)

/-- Both LGRs of the example are such. -/
example : Clean (LGR.run {} leftOps) ∧ Lenient none (LGR.run {} leftOps) := by
  have h : ∀ c ∈ (LGR.run {} leftOps).rep.allChars, ∀ v ∈ c.getVariants,
      v.whenR = none ∧ v.notWhenR = none ∧ v.refs = [] := by decide +kernel
  have h' : ∀ x v, Maps (LGR.run {} leftOps) x v → v.whenR = none ∧ v.notWhenR = none ∧ v.refs = [] := by
    rintro x v ⟨c, hc, hv⟩
    exact h c ((mem_allChars (run_wf _).1 c).2 (by rw [lookup_cp hc]; exact hc)) v hv
  refine ⟨⟨fun x v hv => ?_, fun x v hv => ?_⟩, fun _ => rfl⟩
  · obtain ⟨h1, h2, -⟩ := h' x v hv
    simp [h1, h2]
  · obtain ⟨-, -, h3⟩ := h' x v hv
    simp [h3]

end Lgr.Props.C46
