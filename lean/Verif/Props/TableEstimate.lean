import Verif.Props.TableVariants

/-!
# C166: the estimated number of variants under a table
-/

namespace Lgr.Props.C166
open Lgr LGR Repertoire Text Tables DumpTool TableItems TableSyntax C142 C164 C165

/-! ## Specification -/

/-- The base has `n` variants, itself not counted. -/
def Counts (items : List Item) (s : Seq) (n : Nat) : Prop :=
  ∃ l : List Seq, l.Nodup ∧ l.length = n ∧ ∀ v, v ∈ l ↔ v ≠ s ∧ ∃ t, VariantIn items s v t

/-- No base continues another one. -/
def Free (items : List Item) : Prop := ∀ s s', Base items s → Base items s' → s <+: s' → s = s'

/-- Bases and variants are single code points. -/
def Single (items : List Item) : Prop :=
  (∀ s, Base items s → s.length = 1) ∧ ∀ s v t, VariantIn items s v t → v.length = 1

/-- What is estimated for the labels which can be cut into the longest bases (C164), and how many labels are listed. -/
def Estimated (items : List Item) (g : Repertoire) (actions : List Action) : Prop :=
  ∀ (env : FullEnv) (label : Seq) (ks : List Seq), Cut items label 0 ks label.length →
    ∀ N : Seq → Nat, (∀ s ∈ ks, Counts items s (N s)) →
      env.estimate g false label = .ok (ks.map (fun s => N s + 1)).prod ∧
      (Free items → ∀ o out, env.computeDisposition g actions true o label = .ok out →
        (out.map FullEnv.Item.cps).dedup.length ≤ (ks.map (fun s => N s + 1)).prod) ∧
      (Single items → ∀ out, env.computeDisposition g actions true { includeInvalid := true } label = .ok out →
        out.length = (ks.map (fun s => N s + 1)).prod)

/-! ## Proofs -/

section
variable {valid : String → Bool} {digit : Char → Bool} {k : Table} {lines : List (List Char)} {items : List Item} {g : LGR}

theorem cut_chars (h : ReadOf digit k lines items) (hs : Says valid (forced k) items g) (env : Env) {label : Seq} {o e : Nat}
    {ks : List Seq} (hc : Cut items label o ks e) : ∃ cs, cs.map CharObj.cp = ks ∧ C152.Cut env g.rep label o cs e := by
  induction hc with
  | done o => exact ⟨[], rfl, .done o⟩
  | step h1 h2 h3 _ ih =>
    obtain ⟨cs, hcs, ih⟩ := ih
    obtain ⟨c, rfl, hc⟩ := (stands_iff h hs env label _ _).2 ⟨h1, h2⟩
    refine ⟨c :: cs, by rw [List.map_cons, hcs], .step hc (fun d hd => ?_) ih⟩
    obtain ⟨hb, hp⟩ := (stands_iff h hs env label _ _).1 ⟨_, rfl, hd⟩
    exact h3 _ hb hp

theorem counts_of (h : ReadOf digit k lines items) (hs : Says valid (forced k) items g) {c : CharObj} (hc : g.rep.getChar c.cp = .ok c)
    {n : Nat} (hn : Counts items c.cp n) : (FullEnv.nonReflexive c).length = n := by
  obtain ⟨l, h1, rfl, h3⟩ := hn
  obtain ⟨-, -, -, hu, hk⟩ := hs.entry _ c (getChar_ok.1 hc)
  have hk2 : (c.getVariants.map Variant.cp).Nodup := by
    rw [List.nodup_map_iff_inj_on (List.Nodup.of_map _ hk)]
    intro a ha b hb hab
    refine List.inj_on_of_nodup_map hk ha hb ?_
    obtain ⟨_, _, _, _, -, rfl⟩ := (hu a).1 ha
    obtain ⟨_, _, _, _, -, rfl⟩ := (hu b).1 hb
    simpa [Variant.key] using hab
  have hnd : ((FullEnv.nonReflexive c).map Variant.cp).Nodup := hk2.sublist (List.filter_sublist.map _)
  have hperm : ((FullEnv.nonReflexive c).map Variant.cp).Perm l := by
    rw [List.perm_ext_iff_of_nodup hnd h1]
    intro v
    rw [h3, List.mem_map]
    unfold FullEnv.nonReflexive
    constructor
    · rintro ⟨u, hu', rfl⟩
      rw [List.mem_filter, decide_eq_true_eq] at hu'
      exact ⟨hu'.2, u.type, (vars_of h hs hc _ _).1 ⟨u, hu'.1, rfl, rfl⟩⟩
    · rintro ⟨hne, t, ht⟩
      obtain ⟨u, hu1, rfl, -⟩ := (vars_of h hs hc v t).2 ht
      exact ⟨u, by rw [List.mem_filter, decide_eq_true_eq]; exact ⟨hu1, hne⟩, rfl⟩
  rw [← hperm.length_eq, List.length_map]

theorem free_of (h : ReadOf digit k lines items) (hs : Says valid (forced k) items g) (hf : Free items) : C14.PrefixFree g.rep := by
  intro c d hc hd hp
  have e := hf _ _ (base_of h hs hc) (base_of h hs hd) hp
  rw [e, hd] at hc
  cases hc
  rfl

theorem single_of (h : ReadOf digit k lines items) (hs : Says valid (forced k) items g) (hf : Single items) (c : CharObj)
    (hc : g.rep.getChar c.cp = .ok c) :
    c.len = 1 ∧ ∀ v ∈ c.getVariants, v.cp.length = 1 ∧ v.whenR = none ∧ v.notWhenR = none := by
  refine ⟨hf.1 _ (base_of h hs hc), fun v hv => ⟨hf.2 _ _ _ ((vars_of h hs hc v.cp v.type).1 ⟨v, hv, rfl, rfl⟩), ?_⟩⟩
  obtain ⟨-, -, -, hu, -⟩ := hs.entry _ c (getChar_ok.1 hc)
  obtain ⟨_, _, _, _, -, rfl⟩ := (hu v).1 hv
  exact ⟨rfl, rfl⟩

end

theorem estimated {valid : String → Bool} {digit : Char → Bool} {k : Table} {lines : List (List Char)} {items : List Item} {g : LGR}
    (h : ReadOf digit k lines items) (hs : Says valid (forced k) items g) (hwf : WF g.rep) : Estimated items g.rep [] := by
  intro env label ks hc N hN
  obtain ⟨cs, rfl, hcut⟩ := cut_chars h hs env.toEnv hc
  obtain ⟨p, hp⟩ := prelim_defined hwf (rules_defined hs env.toEnv) label
  obtain ⟨hok, rfl⟩ := (C152.accepts_iff hwf hp cs).2 hcut
  obtain ⟨hseg, -, -, -⟩ := C13.accepted_is_segmentation hwf hp hok
  have hest : env.estimate g.rep false label = .ok ((p.chars.map CharObj.cp).map (fun s => N s + 1)).prod := by
    unfold FullEnv.estimate
    rw [hp]
    simp only [Bool.false_eq_true, if_false, List.map_map]
    congr 2
    refine List.map_congr_left fun c hcm => ?_
    rw [counts_of h hs (hseg.stored c hcm) (hN c.cp (List.mem_map.2 ⟨c, hcm, rfl⟩))]
    rfl
  exact ⟨hest, fun hf o out he => C24.upper_bound_partial hwf (free_of h hs hf) hp hok he hest,
    fun hf out he => C24.exact_estimate_partial hwf (single_of h hs hf) hp hok he hest⟩

/-- **C166** Every file which is read. -/
theorem table_estimate {digit : Char → Bool} (hd : Digit digit) {k : Table} {lines : List (List Char)} {items : List Item}
    (h : ReadOf digit k lines items) : ∃ g, parse digit k lines = (g, .ok ()) ∧ Estimated items g.rep [] := by
  have hsrc := source_of_read hd h
  exact ⟨_, hsrc.read, estimated h (says_items valid0 (forced k) true items hsrc.proper) (wf_foldl items wf_empty)⟩

/-- **C166** The same is so under the LGR read from the document which the tool prints for the file, under the conditions of C142. -/
theorem printed_estimate {digit : Char → Bool} (hd : Digit digit) {k : Table} {lines : List (List Char)} {items : List Item}
    (h : ReadOf digit k lines items) (R : DocXml.Reader) (hx : C99.Sound R.x) (hsafe : C104.Safe R.db R.strict R.force)
    (hu : Usable R digit k lines items) :
    ∃ d, DumpTool.run digit k lines = .printed d ∧ ∀ cs, ∃ cs' g, DocXml.parseDoc R cs d = (cs', .ok (some g)) ∧
      Estimated items g.lgr.rep g.rules.actions := by
  obtain ⟨d, m, h1, -, h2⟩ := dump_source hd R hx hsafe (source_of_read hd h) hu
  refine ⟨d, h1, fun cs => ?_⟩
  obtain ⟨cs', g, h3, h4, -⟩ := h2 cs
  refine ⟨cs', g, h3, ?_⟩
  rw [h4.rules.2.1]
  exact estimated h h4.content (doc_wf h3)

/-! Non-vacuity: the table of C142, where `a` has the variants `b` and `c`; for the label `aa` the estimate is 9, and 9 labels are listed. -/

theorem cut3 : Cut items3 [0x61, 0x61] 0 [[0x61], [0x61]] 2 := by
  have hb : Base items3 [0x61] := ⟨["1"], by simp [items3, items0]⟩
  exact .step hb (by decide) (fun k' h _ => by rw [base3 h]) (.step hb (by decide) (fun k' h _ => by rw [base3 h]) (.done _))

theorem var3 {s v : Seq} {t : Option String} (h : VariantIn items3 s v t) : v = [0x62] ∨ v = [0x63] := by
  obtain ⟨pre, refs, post, hp, -⟩ := h
  have hm : Item.var s v t refs ∈ items3 := by rw [hp]; exact List.mem_append_right _ List.mem_cons_self
  simp [items3, items0] at hm
  rcases hm with h | h
  · exact .inl h.2.1
  · exact .inr h.2.1

theorem variant3' : VariantIn items3 [0x61] [0x63] (some "activated") := by
  refine ⟨[.ref "1" "Book " (some "a"), .base [0x61] ["1"], .var [0x61] [0x62] (some "activated") ["1"]], [], [], rfl, ⟨["1"], by simp⟩, ?_⟩
  intro pre' t refs post' h
  have : Item.var [0x61] [0x63] t refs ∈
    [Item.ref "1" "Book " (some "a"), .base [0x61] ["1"], .var [0x61] [0x62] (some "activated") ["1"]] := by rw [h]; simp
  simp at this

theorem counts3 : Counts items3 [0x61] 2 := by
  refine ⟨[[0x62], [0x63]], by decide, rfl, fun v => ⟨fun h => ?_, fun ⟨_, t, h⟩ => ?_⟩⟩
  · simp at h
    rcases h with rfl | rfl
    · exact ⟨by decide, _, variant3⟩
    · exact ⟨by decide, _, variant3'⟩
  · rcases var3 h with rfl | rfl <;> simp

theorem single3 : Single items3 :=
  ⟨fun s h => by rw [base3 h]; rfl, fun s v t h => by rcases var3 h with rfl | rfl <;> rfl⟩

example (env : FullEnv) : ∃ g out, parse digit0 .rfc3743 table3 = (g, .ok ()) ∧ env.estimate g.rep false [0x61, 0x61] = .ok 9 ∧
    env.computeDisposition g.rep [] true { includeInvalid := true } [0x61, 0x61] = .ok out ∧ out.length = 9 := by
  obtain ⟨g, h1, h⟩ := table_estimate digit0_ok read3
  obtain ⟨g', h1', h'⟩ := table_variants digit0_ok read3
  rw [h1] at h1'
  cases h1'
  obtain ⟨out, h2, -⟩ := h' env { includeInvalid := true } [0x61, 0x61] (by decide) (by decide)
  obtain ⟨h3, -, h4⟩ := h env _ _ cut3 (fun _ => 2) (by
    intro s hs
    simp at hs
    rw [hs]
    exact counts3)
  exact ⟨g, out, h1, h3, h2, h4 single3 out h2⟩

end Lgr.Props.C166
