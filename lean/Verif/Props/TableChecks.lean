import Verif.Props.TableVariants
import Verif.Props.Validate

/-!
# C167: the symmetry and transitivity checks on a table
-/

namespace Lgr.Props.C167
open Lgr LGR Repertoire Text Tables DumpTool TableItems TableSyntax Validate C142 C164 C165

/-! ## Specification -/

/-- The table has `v` as a variant of the base `s`. -/
def Var (items : List Item) (s v : Seq) : Prop := ∃ t, VariantIn items s v t

/-- Every variant is a base and has the base as a variant. -/
def Symmetric (items : List Item) : Prop := ∀ s v, Var items s v → Base items v ∧ Var items v s

/-- Every variant is a base, the variants of which are the base or variants of the base. -/
def Transitive (items : List Item) : Prop :=
  ∀ s v, Var items s v → Base items v ∧ ∀ w, Var items v w → w ≠ s → Var items s w

/-- What the two checks find on this LGR. -/
structure Checked (items : List Item) (g : LGR) : Prop where
  symmetryReturns : ∀ ign, ∃ s es, (checkSymmetry none g ign).2 = .ok (s, es)
  transitivityReturns : ∃ s es, (checkTransitivity none g).2 = .ok (s, es)
  symmetry : ∀ db s ign es, (checkSymmetry db g ign).2 = .ok (s, es) → (s = true ↔ Symmetric items)
  transitivity : ∀ db s es, (checkTransitivity db g).2 = .ok (s, es) → (s = true ↔ Transitive items)
  outside : ∀ db s ign es, (checkSymmetry db g ign).2 = .ok (s, es) → ∀ a v,
    (∃ e ∈ es, e.char = a ∧ e.variant.cp = v ∧ e.kind = .notInRepertoire) ↔ Var items a v ∧ ¬ Base items v
  missing : ∀ db s ign es, (checkSymmetry db g ign).2 = .ok (s, es) → ∀ a v,
    (∃ e ∈ es, e.char = a ∧ e.variant.cp = v ∧ e.kind = .missingSymmetric) ↔ Var items a v ∧ Base items v ∧ ¬ Var items v a
  third : ∀ db s es, (checkTransitivity db g).2 = .ok (s, es) → ∀ a w,
    (∃ e ∈ es, e.char = a ∧ e.variant.cp = w) ↔ ∃ v, Var items a v ∧ Var items v w ∧ w ≠ a ∧ ¬ Var items a w

/-! ## Proofs -/

section
variable {valid : String → Bool} {digit : Char → Bool} {k : Table} {lines : List (List Char)} {items : List Item} {g : LGR}

theorem in_iff (h : ReadOf digit k lines items) (hs : Says valid (forced k) items g) (s : Seq) : C26.In g s ↔ Base items s := by
  rw [base_iff h (fun _ h => h) valid]
  constructor
  · rintro ⟨c, hc⟩
    obtain ⟨-, -, ⟨pre, refs, hf, -⟩, -⟩ := hs.entry _ c hc
    exact ⟨_, _, hf⟩
  · intro hf
    exact Option.isSome_iff_exists.1 (hs.all s hf)

theorem maps_iff (h : ReadOf digit k lines items) (hs : Says valid (forced k) items g) (s v : Seq) :
    (∃ u, C26.Maps g s u ∧ u.cp = v) ↔ Var items s v := by
  constructor
  · rintro ⟨u, ⟨c, hc, hu⟩, rfl⟩
    have e := (hs.entry _ c hc).1
    subst e
    exact ⟨u.type, (vars_of h hs (getChar_ok.2 hc) _ _).1 ⟨u, hu, rfl, rfl⟩⟩
  · rintro ⟨t, ht⟩
    obtain ⟨c, hc⟩ := (in_iff h hs s).2 (variant_base ht)
    have e := (hs.entry _ c hc).1
    subst e
    obtain ⟨u, hu, rfl, -⟩ := (vars_of h hs (getChar_ok.2 hc) v t).2 ht
    exact ⟨u, ⟨c, hc, hu⟩, rfl⟩

theorem maps_rules (hs : Says valid (forced k) items g) {s : Seq} {u : Variant} (h : C26.Maps g s u) :
    u.whenR = none ∧ u.notWhenR = none := by
  obtain ⟨c, hc, hu⟩ := h
  obtain ⟨-, -, -, hv, -⟩ := hs.entry _ c hc
  obtain ⟨_, _, _, _, -, rfl⟩ := (hv u).1 hu
  exact ⟨rfl, rfl⟩

theorem symmetric_iff (h : ReadOf digit k lines items) (hs : Says valid (forced k) items g) :
    (∀ a b, C26.Maps g a b → C26.In g b.cp ∧ ∃ w, C26.Maps g b.cp w ∧ w.cp = a) ↔ Symmetric items := by
  constructor
  · intro hm s v hv
    obtain ⟨u, hu, rfl⟩ := (maps_iff h hs s v).2 hv
    obtain ⟨h1, h2⟩ := hm s u hu
    exact ⟨(in_iff h hs _).1 h1, (maps_iff h hs _ _).1 h2⟩
  · intro hm a b hb
    obtain ⟨h1, h2⟩ := hm a b.cp ((maps_iff h hs _ _).1 ⟨b, hb, rfl⟩)
    exact ⟨(in_iff h hs _).2 h1, (maps_iff h hs _ _).2 h2⟩

theorem transitive_iff (h : ReadOf digit k lines items) (hs : Says valid (forced k) items g) :
    (∀ a b, C26.Maps g a b → C26.In g b.cp ∧ ∀ c, C26.Maps g b.cp c → c.cp ≠ a → ∃ d, C26.Maps g a d ∧ d.cp = c.cp) ↔
      Transitive items := by
  constructor
  · intro hm s v hv
    obtain ⟨u, hu, rfl⟩ := (maps_iff h hs s v).2 hv
    obtain ⟨h1, h2⟩ := hm s u hu
    refine ⟨(in_iff h hs _).1 h1, fun w hw hne => ?_⟩
    obtain ⟨c, hc, rfl⟩ := (maps_iff h hs _ _).2 hw
    exact (maps_iff h hs _ _).1 (h2 c hc hne)
  · intro hm a b hb
    obtain ⟨h1, h2⟩ := hm a b.cp ((maps_iff h hs _ _).1 ⟨b, hb, rfl⟩)
    exact ⟨(in_iff h hs _).2 h1, fun c hc hne => (maps_iff h hs _ _).2 (h2 c.cp ((maps_iff h hs _ _).1 ⟨c, hc, rfl⟩) hne)⟩

end

theorem checked {valid : String → Bool} {digit : Char → Bool} {k : Table} {lines : List (List Char)} {items : List Item} {g : LGR}
    (h : ReadOf digit k lines items) (hs : Says valid (forced k) items g) (hwf : WF g.rep) : Checked items g := by
  have idna : ∀ s, C50.IdnaOk none g s := fun s _ _ h => nomatch h
  refine ⟨fun ign => ?_, ?_, fun db s ign es he => ?_, fun db s es he => ?_, fun db s ign es he a v => ?_,
    fun db s ign es he a v => ?_, fun db s es he a w => ?_⟩
  · obtain ⟨⟨s, es⟩, he⟩ := (C26.check_symmetry_returns_iff none g hwf ign).2 fun _ _ _ _ => idna _
    exact ⟨s, es, he⟩
  · obtain ⟨⟨s, es⟩, he⟩ := (C27.check_transitivity_returns_iff none g hwf).2 fun _ _ _ => idna _
    exact ⟨s, es, he⟩
  · rw [← symmetric_iff h hs]
    cases ign with
    | true => exact C26.check_symmetry_exact db g hwf s es he
    | false =>
      rw [C26.check_symmetry_rules_exact db g hwf s es he]
      refine forall₂_congr fun a b => forall_congr' fun hm => ?_
      obtain ⟨h1, h2⟩ := maps_rules hs hm
      simp [h1, h2]
  · rw [← transitive_iff h hs]
    exact C27.check_transitivity_exact db g hwf s es he
  · rw [← in_iff h hs, ← maps_iff h hs]
    constructor
    · rintro ⟨e, hm, rfl, rfl, hk⟩
      obtain ⟨h1, h2, -⟩ := (C26.check_symmetry_report db g hwf ign s es he e).1 hm
      rw [hk] at h2
      cases h2 with
      | outside h2 => exact ⟨⟨_, h1, rfl⟩, h2⟩
    · rintro ⟨⟨u, hu, rfl⟩, hn⟩
      exact ⟨⟨a, u, .notInRepertoire⟩, (C26.check_symmetry_report db g hwf ign s es he _).2 ⟨hu, .outside hn, .inr (.inl rfl)⟩, rfl, rfl, rfl⟩
  · rw [← in_iff h hs, ← maps_iff h hs, ← maps_iff h hs]
    constructor
    · rintro ⟨e, hm, rfl, rfl, hk⟩
      obtain ⟨h1, h2, -⟩ := (C26.check_symmetry_report db g hwf ign s es he e).1 hm
      rw [hk] at h2
      cases h2 with
      | missing h2 h3 => exact ⟨⟨_, h1, rfl⟩, h2, fun ⟨w, hw, e⟩ => h3 w hw e⟩
    · rintro ⟨⟨u, hu, rfl⟩, hi, hn⟩
      exact ⟨⟨a, u, .missingSymmetric⟩, (C26.check_symmetry_report db g hwf ign s es he _).2
        ⟨hu, .missing hi fun w hw e => hn ⟨w, hw, e⟩, .inr (.inr rfl)⟩, rfl, rfl, rfl⟩
  · have hrep := C27.check_transitivity_report db g hwf s es he
    constructor
    · rintro ⟨e, hm, rfl, rfl⟩
      obtain ⟨b, h1, h2, h3, h4⟩ := (hrep e).1 hm
      refine ⟨b.cp, (maps_iff h hs _ _).1 ⟨b, h1, rfl⟩, (maps_iff h hs _ _).1 ⟨_, h2, rfl⟩, h3, fun hv => ?_⟩
      obtain ⟨d, h5, h6⟩ := (maps_iff h hs _ _).2 hv
      exact h4 d h5 h6
    · rintro ⟨v, h1, h2, h3, h4⟩
      obtain ⟨b, h5, rfl⟩ := (maps_iff h hs _ _).2 h1
      obtain ⟨c, h6, rfl⟩ := (maps_iff h hs _ _).2 h2
      exact ⟨⟨a, c⟩, (hrep _).2 ⟨b, h5, h6, h3, fun d h7 h8 => h4 ((maps_iff h hs _ _).1 ⟨d, h7, h8⟩)⟩, rfl, rfl⟩

/-- **C167** Every file which is read; with or without regard to context rules, of which a table has none. -/
theorem table_checks {digit : Char → Bool} (hd : Digit digit) {k : Table} {lines : List (List Char)} {items : List Item}
    (h : ReadOf digit k lines items) : ∃ g, parse digit k lines = (g, .ok ()) ∧ Checked items g := by
  have hsrc := source_of_read hd h
  exact ⟨_, hsrc.read, checked h (says_items valid0 (forced k) true items hsrc.proper) (wf_foldl items wf_empty)⟩

/-- **C167** The same is so under the LGR read from the document which the tool prints for the file, under the conditions of C142. -/
theorem printed_checks {digit : Char → Bool} (hd : Digit digit) {k : Table} {lines : List (List Char)} {items : List Item}
    (h : ReadOf digit k lines items) (R : DocXml.Reader) (hx : C99.Sound R.x) (hsafe : C104.Safe R.db R.strict R.force)
    (hu : Usable R digit k lines items) :
    ∃ d, DumpTool.run digit k lines = .printed d ∧ ∀ cs, ∃ cs' g, DocXml.parseDoc R cs d = (cs', .ok (some g)) ∧ Checked items g.lgr := by
  obtain ⟨d, m, h1, -, h2⟩ := dump_source hd R hx hsafe (source_of_read hd h) hu
  refine ⟨d, h1, fun cs => ?_⟩
  obtain ⟨cs', g, h3, h4, -⟩ := h2 cs
  exact ⟨cs', g, h3, checked h h4.content (doc_wf h3)⟩

/-! Non-vacuity: in the table of C164 the base `a` is a variant of itself and there is no other variant, so both checks succeed; in
the one of C142 the variants are not bases, so both fail, and the first says why. -/

theorem var4 {s v : Seq} (h : Var items4 s v) : s = [0x61] ∧ v = [0x61] := by
  obtain ⟨t, pre, refs, post, hp, -⟩ := h
  have hm : Item.var s v t refs ∈ items4 := by rw [hp]; exact List.mem_append_right _ List.mem_cons_self
  simp [items4] at hm
  exact ⟨hm.1, hm.2.1⟩

theorem self4 : Var items4 [0x61] [0x61] := by
  refine ⟨some "activated", [.base [0x61] []], [], [.base [0x62, 0x63] []], rfl, ⟨[], by simp⟩, ?_⟩
  rintro pre' t refs post' h
  have : Item.var [0x61] [0x61] t refs ∈ [Item.base [0x61] []] := by rw [h]; simp
  simp at this

example : ∃ g es es', parse digit0 .rfc3743 table4 = (g, .ok ()) ∧ (checkSymmetry none g false).2 = .ok (true, es) ∧
    (checkTransitivity none g).2 = .ok (true, es') := by
  obtain ⟨g, h1, h⟩ := table_checks digit0_ok read4
  obtain ⟨s', es', h3⟩ := h.transitivityReturns
  obtain ⟨s, es, h2⟩ := h.symmetryReturns false
  have e1 : s = true := (h.symmetry _ _ _ _ h2).2 fun a v hv => by
    obtain ⟨rfl, rfl⟩ := var4 hv
    exact ⟨base4.2 (.inl rfl), self4⟩
  have e2 : s' = true := (h.transitivity _ _ _ h3).2 fun a v hv => by
    obtain ⟨rfl, rfl⟩ := var4 hv
    exact ⟨base4.2 (.inl rfl), fun w hw _ => hw⟩
  subst e1 e2
  exact ⟨g, es, es', h1, h2, h3⟩

example : ∃ g es es', parse digit0 .rfc3743 table3 = (g, .ok ()) ∧ (checkSymmetry none g true).2 = .ok (false, es) ∧
    (∃ e ∈ es, e.char = [0x61] ∧ e.variant.cp = [0x62] ∧ e.kind = .notInRepertoire) ∧
    (checkTransitivity none g).2 = .ok (false, es') := by
  obtain ⟨g, h1, h⟩ := table_checks digit0_ok read3
  obtain ⟨s', es', h3⟩ := h.transitivityReturns
  obtain ⟨s, es, h2⟩ := h.symmetryReturns true
  have hn : ¬ Base items3 [0x62] := fun hb => absurd (base3 hb) (by decide)
  have hv : Var items3 [0x61] [0x62] := ⟨_, variant3⟩
  have e1 : s = false := by
    rw [← Bool.not_eq_true]
    exact fun e => hn ((h.symmetry _ _ _ _ h2).1 e _ _ hv).1
  have e2 : s' = false := by
    rw [← Bool.not_eq_true]
    exact fun e => hn ((h.transitivity _ _ _ h3).1 e _ _ hv).1
  have hr := (h.outside _ _ _ _ h2 [0x61] [0x62]).2 ⟨hv, hn⟩
  subst e1 e2
  exact ⟨g, es, es', h1, h2, hr, h3⟩

example : ∃ d, DumpTool.run digit0 .rfc3743 table4 = .printed d ∧
    ∃ cs' g es, DocXml.parseDoc (reader0 false) [] d = (cs', .ok (some g)) ∧ (checkSymmetry none g.lgr false).2 = .ok (true, es) := by
  obtain ⟨d, h1, h⟩ := printed_checks digit0_ok read4 (reader0 false) C99.x0_sound (.inr (.inl rfl)) usable4
  obtain ⟨cs', g, h2, h⟩ := h []
  obtain ⟨s, es, h3⟩ := h.symmetryReturns false
  have e : s = true := (h.symmetry _ _ _ _ h3).2 fun a v hv => by
    obtain ⟨rfl, rfl⟩ := var4 hv
    exact ⟨base4.2 (.inl rfl), self4⟩
  subst e
  exact ⟨d, h1, cs', g, es, h2, h3⟩

end Lgr.Props.C167
