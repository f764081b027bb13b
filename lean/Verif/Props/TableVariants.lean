import Verif.Props.TableLabels

/-!
# C165: the variants of a label under a table
-/

namespace Lgr.Props.C165
open Lgr LGR Repertoire Text Tables DumpTool TableItems TableSyntax C142 C164

/-! ## Specification -/

/-- A part of a label: a base, kept or replaced by a variant with a type. -/
abbrev Part := Seq × Option (Seq × Option String)

/-- What the part becomes. -/
def Part.after (p : Part) : Seq :=
  match p.2 with
  | some (v, _) => v
  | none => p.1

/-- What the label becomes. -/
def after (ps : List Part) : Seq := ps.flatMap Part.after

/-- The parts are bases of the table, replaced by their variants if at all, and together they are the label. -/
structure Writes (items : List Item) (label : Seq) (ps : List Part) : Prop where
  whole : ps.flatMap Prod.fst = label
  bases : ∀ p ∈ ps, Base items p.1
  variants : ∀ p ∈ ps, ∀ v t, p.2 = some (v, t) → VariantIn items p.1 v t

/-- The label can be cut into the longest bases (C164). -/
def Passes (items : List Item) (label : Seq) : Prop := ∃ ks, Cut items label 0 ks label.length

/-- A base which continues a base with variants has variants itself. -/
def Extend (items : List Item) : Prop :=
  ∀ s s', Base items s → Base items s' → s' <+: s → s' ≠ s → (∃ v t, VariantIn items s' v t) → ∃ v t, VariantIn items s v t

/-! ## Parts and segments -/

def partOf (s : Step) : Part := (s.1.cp, s.2.map (fun v => (v.cp, v.type)))

theorem partOf_after (s : Step) : (partOf s).after = s.out := by
  obtain ⟨c, _ | v⟩ := s <;> rfl

theorem after_map (ss : List Step) : after (ss.map partOf) = outOf ss := by
  unfold after outOf
  rw [List.flatMap_map]
  congr 1
  funext s
  exact partOf_after s

theorem before_map (ss : List Step) : (ss.map partOf).flatMap Prod.fst = origOf ss := by
  unfold origOf
  rw [List.flatMap_map]
  rfl

theorem step_vars {env : Env} : ∀ {pfx : Seq} {ss : List Step}, AllSteps (ValidStep env) pfx ss →
    ∀ s ∈ ss, ∀ v, s.2 = some v → v ∈ s.1.getVariants
  | _, [], _, s, hs, _, _ => nomatch hs
  | pfx, a :: ss, h, s, hs, v, hv => by
    rcases List.mem_cons.1 hs with rfl | hs
    · exact (h.1 v hv).1
    · exact step_vars h.2 s hs v hv

section
variable {valid : String → Bool} {digit : Char → Bool} {k : Table} {lines : List (List Char)} {items : List Item} {g : LGR}

theorem base_of (h : ReadOf digit k lines items) (hs : Says valid (forced k) items g) {c : CharObj} (hc : g.rep.getChar c.cp = .ok c) :
    Base items c.cp := by
  obtain ⟨-, -, ⟨pre, refs, hf, -⟩, -⟩ := hs.entry _ c (getChar_ok.1 hc)
  exact (base_iff h (fun _ h => h) valid _).2 ⟨_, _, hf⟩

theorem vars_of (h : ReadOf digit k lines items) (hs : Says valid (forced k) items g) {c : CharObj} (hc : g.rep.getChar c.cp = .ok c)
    (v : Seq) (t : Option String) : (∃ u ∈ c.getVariants, u.cp = v ∧ u.type = t) ↔ VariantIn items c.cp v t := by
  obtain ⟨-, -, -, hu, -⟩ := hs.entry _ c (getChar_ok.1 hc)
  rw [← var_iff h valid]
  constructor
  · rintro ⟨u, h1, h2⟩; exact ⟨u, (hu u).1 h1, h2⟩
  · rintro ⟨u, h1, h2⟩; exact ⟨u, (hu u).2 h1, h2⟩

theorem writes_of (h : ReadOf digit k lines items) (hs : Says valid (forced k) items g) {env : Env} {label : Seq} {ss : List Step}
    (hr : Rewrites env g.rep label ss) : Writes items label (ss.map partOf) := by
  refine ⟨(before_map ss).trans hr.concat, fun p hp => ?_, fun p hp v t hv => ?_⟩ <;> obtain ⟨s, hm, rfl⟩ := List.mem_map.1 hp
  · exact base_of h hs (hr.stored s hm)
  · cases hx : s.2 with
    | none => simp [partOf, hx] at hv
    | some u =>
      simp [partOf, hx] at hv
      exact (vars_of h hs (hr.stored s hm) v t).1 ⟨u, step_vars hr.valid s hm u hx, hv⟩

theorem rewrites_of (h : ReadOf digit k lines items) (hs : Says valid (forced k) items g) (env : Env) {label : Seq} {ps : List Part}
    (hw : Writes items label ps) : ∃ ss, Rewrites env g.rep label ss ∧ ss.map partOf = ps := by
  obtain ⟨h1, h2, h3⟩ := hw
  have : ∃ ss : List Step, ss.map partOf = ps ∧ (∀ s ∈ ss, g.rep.getChar s.1.cp = .ok s.1) ∧
      ∀ pfx, AllSteps (ValidStep env) pfx ss := by
    clear h1
    induction ps with
    | nil => exact ⟨[], rfl, (fun _ h => nomatch h), fun _ => trivial⟩
    | cons p ps ih =>
      obtain ⟨ss, i1, i2, i3⟩ := ih (fun p hp => h2 p (List.mem_cons_of_mem _ hp)) (fun p hp => h3 p (List.mem_cons_of_mem _ hp))
      have hb := h2 p List.mem_cons_self
      have hv := h3 p List.mem_cons_self
      obtain ⟨c, hc⟩ := Option.isSome_iff_exists.1 (hs.all p.1 ((base_iff h (fun _ h => h) valid _).1 hb))
      obtain ⟨hcp, -, -, hu, -⟩ := hs.entry _ c hc
      have hg : g.rep.getChar c.cp = .ok c := by rw [getChar_ok, hcp]; exact hc
      obtain ⟨q, x⟩ := p
      dsimp only at hcp hv
      subst hcp
      cases x with
      | none =>
        refine ⟨(c, none) :: ss, by rw [List.map_cons, i1]; rfl, ?_, fun pfx => ⟨fun _ h => (nomatch h), i3 _⟩⟩
        intro s hm
        rcases List.mem_cons.1 hm with rfl | hm
        · exact hg
        · exact i2 s hm
      | some y =>
        obtain ⟨v, t⟩ := y
        obtain ⟨u, hu1, hu2, hu3⟩ := (vars_of h hs hg v t).2 (hv v t rfl)
        refine ⟨(c, some u) :: ss, by rw [List.map_cons, i1]; simp [partOf, hu2, hu3], ?_, fun pfx => ⟨?_, i3 _⟩⟩
        · intro s hm
          rcases List.mem_cons.1 hm with rfl | hm
          · exact hg
          · exact i2 s hm
        · rintro w hw
          cases hw
          refine ⟨hu1, ?_⟩
          obtain ⟨_, _, _, _, -, rfl⟩ := (hu u).1 hu1
          simp [VarCtx, CtxHolds]
  obtain ⟨ss, i1, i2, i3⟩ := this
  exact ⟨ss, ⟨by rw [← before_map, i1]; exact h1, i2, i3 []⟩, i1⟩

theorem types_of {ss : List Step} {u : String} : HasType ss u ↔ ∃ p ∈ ss.map partOf, ∃ v, p.2 = some (v, some u) := by
  constructor
  · rintro ⟨c, v, hm, ht⟩
    exact ⟨_, List.mem_map.2 ⟨_, hm, rfl⟩, v.cp, by simp [partOf, ht]⟩
  · rintro ⟨p, hp, v, hv⟩
    obtain ⟨⟨c, x⟩, hm, rfl⟩ := List.mem_map.1 hp
    cases x with
    | none => simp [partOf] at hv
    | some w =>
      simp [partOf] at hv
      exact ⟨c, w, hm, hv.2⟩

theorem hasVariant_iff (hwf : WF g.rep) {c : CharObj} (hc : g.rep.getChar c.cp = .ok c) :
    c.hasVariant = true ↔ ∃ v, v ∈ c.getVariants := by
  have hw := stored_varWF hwf hc
  constructor
  · intro hv
    unfold CharObj.hasVariant at hv
    rw [decide_eq_true_eq] at hv
    obtain ⟨⟨s, vs⟩, hp⟩ := List.exists_mem_of_length_pos hv
    obtain ⟨v, hvv⟩ := List.exists_mem_of_ne_nil _ (hw.nonempty _ hp).1
    exact ⟨v, (CharObj.mem_getVariants hw v).2 (by
      rw [hw.filed _ hp v hvv]
      exact ⟨vs, dget_of_mem hw.keys hp, hvv⟩)⟩
  · rintro ⟨v, hv⟩
    exact hasVariant_of_mem hv

theorem extends_of (h : ReadOf digit k lines items) (hs : Says valid (forced k) items g) (hwf : WF g.rep) (hx : Extend items) :
    C23.VariantsExtend g.rep := by
  intro c d hc hd hp hne hv
  obtain ⟨u, hu⟩ := (hasVariant_iff hwf hd).1 hv
  obtain ⟨v, t, hvt⟩ := hx c.cp d.cp (base_of h hs hc) (base_of h hs hd) hp hne ⟨_, _, (vars_of h hs hd u.cp u.type).1 ⟨u, hu, rfl, rfl⟩⟩
  obtain ⟨w, hw, -⟩ := (vars_of h hs hc v t).2 hvt
  obtain ⟨-, -, ⟨_, _, -, ha⟩, -⟩ := hs.entry _ c (getChar_ok.1 hc)
  exact ⟨(hasVariant_iff hwf hc).2 ⟨w, hw⟩, by rw [ha], by rw [ha]⟩

theorem disp_of (h : ReadOf digit k lines items) (hs : Says valid (forced k) items g) (hwf : WF g.rep) {env : FullEnv}
    {label : Seq} {d : DispSet} {only : Bool} {disp : Option String} {i : Int} (hd : ∀ t ∈ d, t = some "activated")
    (hv : VariantDisp env g.rep [] label d only disp i) :
    (¬ Passes items label ∧ disp = some "invalid") ∨
    (Passes items label ∧ disp = some (if some "activated" ∈ d then "activated" else "valid")) := by
  have hacc := accepted_iff h hs hwf env label
  rcases hv with ⟨h1, h2, -⟩ | ⟨h1, h2, -⟩ | ⟨h1, -, s, rfl, h2⟩
  · exact .inl ⟨fun hp => h1 (hacc.2 hp), h2⟩
  · exact absurd (decides_default h2 (fun t ht => nomatch ht)) (by simp)
  · refine .inr ⟨hacc.1 h1, ?_⟩
    rw [decides_default h2 (fun t ht => .inr (hd t ht))]
    by_cases hm : some "activated" ∈ d
    · rw [if_pos hm, if_pos ⟨List.ne_nil_of_mem hm, hd⟩]
    · rw [if_neg hm, if_neg]
      rintro ⟨hne, hall⟩
      obtain ⟨t, ht⟩ := List.exists_mem_of_ne_nil _ hne
      exact hm (hall t ht ▸ ht)

end

/-- What is listed for a label. -/
structure Lists (items : List Item) (o : FullEnv.Options) (label : Seq) (out : List FullEnv.Item) : Prop where
  own : ∃ it ∈ out, it.cps = label
  sound : ∀ it ∈ out, it.cps ≠ label → ∃ ps, Writes items label ps ∧ it.cps = after ps ∧
    (∀ t, t ∈ it.types ↔ ∃ u, t = some u ∧ ∃ p ∈ ps, ∃ v, p.2 = some (v, some u)) ∧
    ((¬ Passes items it.cps ∧ it.disp = some "invalid") ∨
      (Passes items it.cps ∧ it.disp = some (if some "activated" ∈ it.types then "activated" else "valid")))
  complete : o.hide = false → o.withLabels = [] → Extend items → ∀ ps, Writes items label ps → (∃ p ∈ ps, p.2.isSome = true) →
    (o.includeInvalid = true ∨ Passes items (after ps)) → ∃ it ∈ out, it.cps = after ps

theorem lists {digit : Char → Bool} (hd : Digit digit) {k : Table} {lines : List (List Char)} {items : List Item}
    (h : ReadOf digit k lines items) {valid : String → Bool} {g : LGR} (hs : Says valid (forced k) items g) (hwf : WF g.rep)
    (env : FullEnv) (o : FullEnv.Options) {label : Seq} (hl : label ≠ []) (hlen : label.length ≤ 63) :
    ∃ out, env.computeDisposition g.rep [] true o label = .ok out ∧ Lists items o label out := by
  have hsrc := source_of_read hd h
  have hact : ∀ ss : List Step, ∀ label, Writes items label (ss.map partOf) → ∀ u, HasType ss u → u = "activated" := by
    intro ss label hw u hu
    obtain ⟨p, hp, v, hv⟩ := types_of.1 hu
    obtain ⟨pre, refs, post, hpost, -⟩ := hw.variants p hp v _ hv
    rcases hsrc.types p.1 v (some u) refs (by rw [hpost]; simp) with h | h
    · cases h
    · cases h; rfl
  obtain ⟨out, he⟩ := C25.listing_total hwf (rules_defined hs env.toEnv) (actions := []) (fun _ _ ha => nomatch ha) o hl hlen
  refine ⟨out, he, ?_, ?_, ?_⟩
  · obtain ⟨gs, its, orig, last, -, -, -, rfl, hlast, -, -⟩ := compute_split he
    exact ⟨last, by simp, hlast⟩
  · intro it hit hne
    obtain ⟨ss, only, h1, h2, h3, -, h5, -⟩ := C48.listed_disposition hwf he hit hne
    have hw := writes_of h hs h1
    refine ⟨ss.map partOf, hw, by rw [after_map, h2], fun t => ?_, disp_of h hs hwf ?_ h5⟩
    · rw [h3]
      simp only [types_of]
    · intro t ht
      obtain ⟨u, rfl, hu⟩ := (h3 t).1 ht
      rw [hact ss label hw u hu]
  · intro hh hwl hx ps hw hm hi
    obtain ⟨gs, _, _, _, hgs, _⟩ := compute_split he
    rw [hh] at hgs
    obtain ⟨ss, hr, rfl⟩ := rewrites_of h hs env.toEnv hw
    obtain ⟨g', hg', hcp⟩ := C23.no_variant_missed_partial hwf (extends_of h hs hwf hx) hgs hr (by
      obtain ⟨p, hp, hsome⟩ := hm
      obtain ⟨s, hs', rfl⟩ := List.mem_map.1 hp
      exact ⟨s, hs', by simpa [partOf] using hsome⟩)
    rw [after_map] at hi ⊢
    rcases C48.every_variant_listed hwf he (by rw [hh]; exact hgs) hg' (fun hn => absurd hwl hn) with ⟨it, h1, h2⟩ | ⟨h1, h2, g2, h3, h4, i, h5⟩
    · exact ⟨it, h1, h2.trans hcp⟩
    · exfalso
      obtain ⟨ss2, r1, r2, -, r3, -⟩ := C22.generated_sound hwf hgs h3
      have hw2 := writes_of h hs r1
      rcases disp_of h hs hwf (fun t ht => by
        obtain ⟨u, rfl, hu⟩ := (r3 t).1 ht
        rw [hact ss2 label hw2 u hu]) h5 with ⟨h6, -⟩ | ⟨-, h6⟩
      · rcases hi with hi | hi
        · rw [h1] at hi; cases hi
        · exact h6 (hcp ▸ hi)
      · injection h6 with h6
        split at h6 <;> exact absurd h6 (by decide)

/-- **C165** Every file which is read, and every label of at most 63 code points. -/
theorem table_variants {digit : Char → Bool} (hd : Digit digit) {k : Table} {lines : List (List Char)} {items : List Item}
    (h : ReadOf digit k lines items) :
    ∃ g, parse digit k lines = (g, .ok ()) ∧ ∀ (env : FullEnv) (o : FullEnv.Options) (label : Seq), label ≠ [] → label.length ≤ 63 →
      ∃ out, env.computeDisposition g.rep [] true o label = .ok out ∧ Lists items o label out := by
  have hsrc := source_of_read hd h
  exact ⟨_, hsrc.read, fun env o label hl hlen =>
    lists hd h (says_items valid0 (forced k) true items hsrc.proper) (wf_foldl items wf_empty) env o hl hlen⟩

/-- **C165** The same is so under the LGR read from the document which the tool prints for the file, with its actions, under the
conditions of C142 (`dump_any_partial`). -/
theorem printed_variants {digit : Char → Bool} (hd : Digit digit) {k : Table} {lines : List (List Char)} {items : List Item}
    (h : ReadOf digit k lines items) (R : DocXml.Reader) (hx : C99.Sound R.x) (hsafe : C104.Safe R.db R.strict R.force)
    (hu : Usable R digit k lines items) :
    ∃ d, DumpTool.run digit k lines = .printed d ∧ ∀ cs, ∃ cs' g, DocXml.parseDoc R cs d = (cs', .ok (some g)) ∧
      ∀ (env : FullEnv) (o : FullEnv.Options) (label : Seq), label ≠ [] → label.length ≤ 63 →
        ∃ out, env.computeDisposition g.lgr.rep g.rules.actions true o label = .ok out ∧ Lists items o label out := by
  obtain ⟨d, m, h1, -, h2⟩ := dump_source hd R hx hsafe (source_of_read hd h) hu
  refine ⟨d, h1, fun cs => ?_⟩
  obtain ⟨cs', g, h3, h4, -⟩ := h2 cs
  refine ⟨cs', g, h3, fun env o label hl hlen => ?_⟩
  rw [h4.rules.2.1]
  exact lists hd h h4.content (doc_wf h3) env o hl hlen

/-! Non-vacuity: the table of C142, where `a` has the variants `b` and `c`, and the label `a`. -/

theorem variant3 : VariantIn items3 [0x61] [0x62] (some "activated") := by
  refine ⟨[.ref "1" "Book " (some "a"), .base [0x61] ["1"]], ["1"], [.var [0x61] [0x63] (some "activated") []], rfl, ⟨_, by simp; rfl⟩, ?_⟩
  intro pre' t refs post' h
  have : Item.var [0x61] [0x62] t refs ∈ [Item.ref "1" "Book " (some "a"), .base [0x61] ["1"]] := by rw [h]; simp
  simp at this

theorem base3 {s : Seq} (h : Base items3 s) : s = [0x61] := by
  obtain ⟨refs, h⟩ := h
  simp [items3, items0] at h
  exact h.1

theorem extend3 : Extend items3 := fun _ _ h h' _ hne => absurd ((base3 h').trans (base3 h).symm) hne

theorem writes3 : Writes items3 [0x61] [([0x61], some ([0x62], some "activated"))] := by
  refine ⟨rfl, fun p hp => ?_, fun p hp v t hv => ?_⟩ <;> rw [List.mem_singleton] at hp <;> subst hp
  · exact ⟨["1"], by simp [items3, items0]⟩
  · cases hv; exact variant3

theorem fails3 : ¬ Passes items3 [0x62] := by
  rintro ⟨ks, h⟩
  cases h with
  | step hb hp _ _ => rw [base3 hb] at hp; exact absurd hp (by decide)

example (env : FullEnv) : ∃ g out, parse digit0 .rfc3743 table3 = (g, .ok ()) ∧
    env.computeDisposition g.rep [] true { includeInvalid := true } [0x61] = .ok out ∧
    ∃ it ∈ out, it.cps = [0x62] ∧ it.disp = some "invalid" := by
  obtain ⟨g, h1, h⟩ := table_variants digit0_ok read3
  obtain ⟨out, h2, hL⟩ := h env { includeInvalid := true } [0x61] (by decide) (by decide)
  obtain ⟨it, h3, h4⟩ := hL.complete rfl rfl extend3 _ writes3 ⟨_, List.mem_singleton.2 rfl, rfl⟩ (.inl rfl)
  have h4 : it.cps = [0x62] := h4
  refine ⟨g, out, h1, h2, it, h3, h4, ?_⟩
  obtain ⟨_, _, _, _, ⟨-, h5⟩ | ⟨h5, -⟩⟩ := hL.sound it h3 (by rw [h4]; decide)
  · exact h5
  · exact absurd (h4 ▸ h5) fails3

example (env : FullEnv) : ∃ d, DumpTool.run digit0 .rfc3743 table3 = .printed d ∧
    ∃ cs' g out, DocXml.parseDoc (reader0 false) [] d = (cs', .ok (some g)) ∧
      env.computeDisposition g.lgr.rep g.rules.actions true { includeInvalid := true } [0x61] = .ok out ∧
      ∃ it ∈ out, it.cps = [0x62] := by
  obtain ⟨d, h1, h⟩ := printed_variants digit0_ok read3 (reader0 false) C99.x0_sound (.inr (.inl rfl)) (usable3 false)
  obtain ⟨cs', g, h2, h⟩ := h []
  obtain ⟨out, h3, hL⟩ := h env { includeInvalid := true } [0x61] (by decide) (by decide)
  exact ⟨d, h1, cs', g, out, h2, h3, hL.complete rfl rfl extend3 _ writes3 ⟨_, List.mem_singleton.2 rfl, rfl⟩ (.inl rfl)⟩

/-! ## What is not so -/

theorem vars_all {s : Seq} : ∀ {ts : List (List Char)} {vs : List Seq}, ts.map parseChar4290 = vs.map some →
    C73.VarsSay s ts (vs.map (fun v => .var s v none []))
  | [], [], _ => .nil
  | [], _ :: _, h => by cases h
  | _ :: _, [], h => by cases h
  | t :: ts, v :: vs, h => by
    simp only [List.map_cons, List.cons.injEq] at h
    exact .good (C73.charSays_iff.1 h.1) (vars_all h.2)

theorem reads_row {p : Option Seq} {line : List Char} {s : Seq} {vs : List Seq} (h : row4290 line = some ⟨some s, vs.map some⟩) :
    C159.Reads p line (.base s [] :: vs.map (fun v => .var s v none [])) (some s) := by
  obtain ⟨b, ts, h1, h2⟩ := C73.row_iff.1 h
  simp only [Row4290.mk.injEq] at h2
  exact .row h1 (C73.charSays_iff.1 h2.1.symm) (vars_all h2.2.symm)

/-- `a` with the variant `x`, `ab`, and `c` with the variant `y`. -/
def table6 : List (List Char) := ["U+0061|U+0078".toList, "U+0061-U+0062".toList, "U+0063|U+0079".toList]

def items6 : List Item := [.base [0x61] [], .var [0x61] [0x78] none [], .base [0x61, 0x62] [], .base [0x63] [], .var [0x63] [0x79] none []]

theorem read6 : ReadOf digit0 .rfc4290 table6 items6 :=
  ⟨some [0x63], .cons (its := [.base [0x61] [], .var [0x61] [0x78] none []])
    (reads_row (s := [0x61]) (vs := [[0x78]]) (by decide +kernel))
    (.cons (its := [.base [0x61, 0x62] []]) (reads_row (s := [0x61, 0x62]) (vs := []) (by decide +kernel))
      (.cons (its := [.base [0x63] [], .var [0x63] [0x79] none []]) (its' := [])
        (reads_row (s := [0x63]) (vs := [[0x79]]) (by decide +kernel)) .nil))⟩

theorem base6 {s : Seq} (h : Base items6 s) : s = [0x61] ∨ s = [0x61, 0x62] ∨ s = [0x63] := by
  obtain ⟨refs, h⟩ := h
  simp [items6] at h
  rcases h with h | h | h
  · exact .inl h.1
  · exact .inr (.inl h.1)
  · exact .inr (.inr h.1)

theorem passes6 : Passes items6 [0x61, 0x62, 0x63] := by
  refine ⟨[[0x61, 0x62], [0x63]], .step ⟨[], by simp [items6]⟩ (by decide) ?_ (.step ⟨[], by simp [items6]⟩ (by decide) ?_ (.done _))⟩
  · intro k' hb hp
    rcases base6 hb with rfl | rfl | rfl <;> decide
  · intro k' hb hp
    rcases base6 hb with rfl | rfl | rfl
    · decide
    · exact absurd hp (by decide)
    · decide

theorem writes6 : Writes items6 [0x61, 0x62, 0x63] [([0x61, 0x62], none), ([0x63], some ([0x79], none))] := by
  refine ⟨rfl, fun p hp => ?_, fun p hp v t hv => ?_⟩ <;>
    rcases List.mem_cons.1 hp with rfl | hp <;> try (rw [List.mem_singleton] at hp; subst hp)
  · exact ⟨[], by simp [items6]⟩
  · exact ⟨[], by simp [items6]⟩
  · cases hv
  · cases hv
    refine ⟨[.base [0x61] [], .var [0x61] [0x78] none [], .base [0x61, 0x62] [], .base [0x63] []], [], [], rfl, ⟨[], by simp⟩, ?_⟩
    intro pre' t refs post' h
    have : Item.var [0x63] [0x79] t refs ∈ [Item.base [0x61] [], .var [0x61] [0x78] none [], .base [0x61, 0x62] [], .base [0x63] []] := by
      rw [h]; simp
    simp at this

/-- **C165** Without the condition on the bases, variants are missed: of the label `abc`, which is accepted as `ab` and `c`, the variant
`aby` is not listed, since `a` has a variant and `ab` has not. -/
theorem missed_wrong : ∃ g out, parse digit0 .rfc4290 table6 = (g, .ok ()) ∧ Passes items6 [0x61, 0x62, 0x63] ∧
    Writes items6 [0x61, 0x62, 0x63] [([0x61, 0x62], none), ([0x63], some ([0x79], none))] ∧
    FullEnv.computeDisposition ⟨⟨fun _ _ _ _ => .ok true⟩, fun _ _ => .ok true, fun _ => "Latin"⟩ g.rep [] true
      { includeInvalid := true } [0x61, 0x62, 0x63] = .ok out ∧ ¬ ∃ it ∈ out, it.cps = [0x61, 0x62, 0x79] := by
  obtain ⟨g, h1, h⟩ := table_variants digit0_ok read6
  obtain ⟨out, h2, -⟩ := h ⟨⟨fun _ _ _ _ => .ok true⟩, fun _ _ => .ok true, fun _ => "Latin"⟩ { includeInvalid := true }
    [0x61, 0x62, 0x63] (by decide) (by decide)
  refine ⟨g, out, h1, passes6, writes6, h2, ?_⟩
  have h3 : (match FullEnv.computeDisposition ⟨⟨fun _ _ _ _ => .ok true⟩, fun _ _ => .ok true, fun _ => "Latin"⟩
      (parse digit0 .rfc4290 table6).1.rep [] true { includeInvalid := true } [0x61, 0x62, 0x63] with
    | .ok out => out.all (fun it => decide (it.cps ≠ [0x61, 0x62, 0x79]))
    | .error _ => false) = true := by decide +kernel
  rw [h1, h2] at h3
  rintro ⟨it, hit, he⟩
  have := List.all_eq_true.1 h3 it hit
  rw [decide_eq_true_eq] at this
  exact this he

end Lgr.Props.C165
