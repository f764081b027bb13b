import Verif.Props.ReviewSets
import Verif.Props.Compare

/-!
# C88: the symmetry and transitivity checks of a variant set
-/

namespace Lgr.Props.C88
open Lgr LGR Repertoire C50 C26 Review

/-- The variant which `add_variant(cp, var.cp)` makes. -/
def plain (k : Seq) : Variant := ⟨k, none, none, none, none, []⟩

/-- Adding a variant which is there already. -/
theorem addVariant_dup {g : LGR} (hwf : WF g.rep) {k v : Seq} (hv : v ≠ []) {c : CharObj}
    (hc : g.rep.lookup k = some c) (hr : c.range = none) (hd : HasVar c v none none) :
    g.addVariant none (.seq k) (.seq v) none {} = (g, .error (.variantAlreadyExists k v)) := by
  have hk : k ≠ [] := by rintro rfl; simp [lookup] at hc
  have h1 : g.addVariantChecks none (.seq k) (.seq v) none {} = .ok (k, plain v) := by
    unfold LGR.addVariantChecks
    rw [checkConvert_ok.2 ⟨.seq k hk, by simp [IdnaOk]⟩, checkConvert_ok.2 ⟨.seq v hv, by simp [IdnaOk]⟩]
    rfl
  unfold LGR.addVariant
  rw [h1]
  have hw := (lookup_charWF hwf hc).varWF
  have h2 : c.addVariant (plain v) = .error (.variantAlreadyExists k v) := by
    have h3 : ¬ ∃ c', c.addVariant (plain v) = .ok c' := by
      rw [char_addVariant_ok hw (by exact hv)]
      intro h; exact h.2 hd
    unfold CharObj.addVariant at h3 ⊢
    rw [hr] at h3 ⊢
    simp only [Option.isSome_none, Bool.false_eq_true, if_false] at h3 ⊢
    rw [if_neg (by exact hv)] at h3 ⊢
    split
    · rename_i vs hvs
      rw [hvs] at h3
      split
      · rw [lookup_cp hc]; rfl
      · rename_i h4; simp only [if_neg h4] at h3; exact (h3 ⟨_, rfl⟩).elim
    · rename_i hvs
      rw [hvs] at h3; exact (h3 ⟨_, rfl⟩).elim
  simp only [Repertoire.addVariant, getChar_ok.2 hc, h2]

/-- The variants of one member. -/
theorem vars_spec {k : Seq} (vs : List Variant) (hvs : ∀ v ∈ vs, v.cp ≠ []) :
    ∀ {g : LGR}, WF g.rep → ∀ {c : CharObj}, g.rep.lookup k = some c → c.range = none →
    (∀ u ∈ c.getVariants, u = plain u.cp) →
    ∃ g' c', forEach (checksVar k) g vs = (g', .ok ()) ∧ WF g'.rep ∧ g'.rep.lookup k = some c' ∧
      c'.range = none ∧ (∀ u ∈ c'.getVariants, u = plain u.cp) ∧
      (∀ x, (∃ u ∈ c'.getVariants, u.cp = x) ↔ (∃ u ∈ c.getVariants, u.cp = x) ∨ ∃ v ∈ vs, v.cp = x) ∧
      ∀ j, j ≠ k → g'.rep.lookup j = g.rep.lookup j := by
  induction vs with
  | nil => intro g hwf c hc hr hp; exact ⟨g, c, rfl, hwf, hc, hr, hp, by simp, fun _ _ => rfl⟩
  | cons v vs ih =>
    intro g hwf c hc hr hp
    have hk : k ≠ [] := by rintro rfl; simp [lookup] at hc
    have hv := hvs v (by simp)
    have hvs' : ∀ v ∈ vs, v.cp ≠ [] := fun v hv => hvs v (by simp [hv])
    by_cases hd : HasVar c v.cp none none
    · have h1 : checksVar k g v = (g, .ok ()) := by
        unfold checksVar; rw [addVariant_dup hwf hv hc hr hd]
      obtain ⟨g', c', e, h2, h3, h4, h5, h6, h7⟩ := ih hvs' hwf hc hr hp
      refine ⟨g', c', by simp only [forEach, h1]; exact e, h2, h3, h4, h5, ?_, h7⟩
      intro x
      rw [h6]
      obtain ⟨u, hu, hu'⟩ := hd
      have hcp : u.cp = v.cp := congrArg Prod.fst hu'
      constructor
      · rintro (h | ⟨w, hw, hx⟩)
        · exact Or.inl h
        · exact Or.inr ⟨w, by simp [hw], hx⟩
      · rintro (h | ⟨w, hw, hx⟩)
        · exact Or.inl h
        · rcases List.mem_cons.1 hw with rfl | hw
          · exact Or.inl ⟨u, hu, hcp.trans hx⟩
          · exact Or.inr ⟨w, hw, hx⟩
    · have hok : (g.addVariant none (.seq k) (.seq v.cp) none {}).2 = .ok () := by
        rw [add_variant_ok_iff none g hwf]
        exact ⟨k, v.cp, c, .seq k hk, by simp [IdnaOk], .seq _ hv, by simp [IdnaOk], by simp [VRepOk], hc, hr,
          hd, fun _ => C30.strict_bare g _ rfl (Or.inl rfl)⟩
      have h1 := add_variant_effect none g hwf (.seq k) (.seq v.cp) none {} hok
      have h2 := C30.wf_addVariant (db := none) hwf (.seq k) (.seq v.cp) none {}
      have h0 : checksVar k g v = g.addVariant none (.seq k) (.seq v.cp) none {} := by
        unfold checksVar
        generalize g.addVariant none (.seq k) (.seq v.cp) none {} = res at hok
        obtain ⟨g', o⟩ := res
        simp only at hok
        subst hok
        rfl
      generalize g.addVariant none (.seq k) (.seq v.cp) none {} = res at hok h1 h2 h0
      obtain ⟨g1, o⟩ := res
      simp only at hok; subst hok
      obtain ⟨s, w, d, c1, hs, hw, hd', hdr, hcp, hr', ha', hvs1, hl, -⟩ := h1
      cases hs
      cases hw
      rw [hc] at hd'; cases hd'
      have hp1 : ∀ u ∈ c1.getVariants, u = plain u.cp := by
        intro u hu
        rcases (hvs1 u).1 hu with h3 | h3
        · exact hp u h3
        · rw [h3]; simp [plain, knownRefs]
      obtain ⟨g', c', e, h3, h4, h5, h6, h7, h8⟩ := ih hvs' h2 (c := c1) (by rw [hl, if_pos rfl]) hr' hp1
      refine ⟨g', c', by simp only [forEach, h0]; exact e, h3, h4, h5, h6, ?_, ?_⟩
      · intro x
        rw [h7]
        constructor
        · rintro (⟨u, hu, hx⟩ | ⟨w, hw, hx⟩)
          · rcases (hvs1 u).1 hu with h9 | h9
            · exact Or.inl ⟨u, h9, hx⟩
            · exact Or.inr ⟨v, by simp, by rw [← hx, h9]⟩
          · exact Or.inr ⟨w, by simp [hw], hx⟩
        · rintro (⟨u, hu, hx⟩ | ⟨w, hw, hx⟩)
          · exact Or.inl ⟨u, (hvs1 u).2 (Or.inl hu), hx⟩
          · rcases List.mem_cons.1 hw with rfl | hw
            · exact Or.inl ⟨_, (hvs1 _).2 (Or.inr rfl), hx⟩
            · exact Or.inr ⟨w, hw, hx⟩
      · intro j hj
        rw [h8 j hj, hl, if_neg hj]

/-- The table maps `a` to `b`. -/
def MapsTo (r : Repertoire) (a b : Seq) : Prop := ∃ c, r.lookup a = some c ∧ ∃ v ∈ c.getVariants, v.cp = b

theorem addCp_plain {g : LGR} (hwf : WF g.rep) {k : Seq} (hk : k ≠ []) (hn : g.rep.lookup k = none) :
    ∃ g', g.addCp none (.seq k) {} = (g', .ok ()) ∧ WF g'.rep ∧
      ∀ j, g'.rep.lookup j = if j = k then some { cp := k } else g.rep.lookup j := by
  have hok : (g.addCp none (.seq k) {}).2 = .ok () :=
    C30.addCp_total g k hk {} rfl rfl hn (Or.inl rfl) (by simp [StrictTags])
  obtain ⟨_, h1, _, h2⟩ := C30.addCp_effect g hwf k {} rfl hok
  refine ⟨(g.addCp none (.seq k) {}).1, ?_, h1, h2⟩
  rw [← hok]

/-- The LGR made of the set. -/
theorem loop_spec {idn : Repertoire} (hidn : WF idn) (l : List Seq) (hl : l.Nodup) (hne : ∀ k ∈ l, k ≠ []) :
    ∀ {g : LGR}, WF g.rep → (∀ k ∈ l, g.rep.lookup k = none) →
    ∃ o, checksLoop idn g l = .ok o ∧ (o = none ↔ ∃ k ∈ l, idn.lookup k = none) ∧
      ∀ g', o = some g' → WF g'.rep ∧
        (∀ k ∈ l, ∃ c', g'.rep.lookup k = some c' ∧ (∀ u ∈ c'.getVariants, u = plain u.cp) ∧
          ∀ x, (∃ u ∈ c'.getVariants, u.cp = x) ↔ MapsTo idn k x) ∧
        ∀ j, j ∉ l → g'.rep.lookup j = g.rep.lookup j := by
  induction l with
  | nil => intro g hwf _; exact ⟨some g, rfl, by simp, by rintro g' ⟨⟩; exact ⟨hwf, by simp, fun _ _ => rfl⟩⟩
  | cons k l ih =>
    intro g hwf hn
    have hk := hne k (by simp)
    obtain ⟨hkl, hl'⟩ := List.nodup_cons.1 hl
    obtain ⟨g1, e1, h1, h2⟩ := addCp_plain hwf hk (hn k (by simp))
    cases hg : idn.getChar k with
    | error e =>
      have hln : idn.lookup k = none := by
        cases hc : idn.lookup k with
        | none => rfl
        | some c => rw [getChar_ok.2 hc] at hg; cases hg
      have he : e = .notInLGR k := by
        cases k with
        | nil => exact absurd rfl hk
        | cons i t =>
          simp only [Repertoire.getChar] at hg
          split at hg
          · injection hg with hg; exact hg.symm
          · split at hg
            · cases hg
            · injection hg with hg; exact hg.symm
      subst he
      refine ⟨none, by simp only [checksLoop, e1, hg], ?_, by simp⟩
      simp only [true_iff]
      exact ⟨k, by simp, hln⟩
    | ok c =>
      have hc := getChar_ok.1 hg
      have hcw := (lookup_charWF hidn hc).varWF
      obtain ⟨g2, c2, e2, h3, h4, h5, h6, h7, h8⟩ := vars_spec (k := k) c.getVariants
        (fun v hv => variant_ne hcw hv) h1 (c := { cp := k }) (by rw [h2, if_pos rfl]) rfl
        (by simp [CharObj.getVariants, sortAsc])
      obtain ⟨o, e3, h9, h10⟩ := ih hl' (fun j hj => hne j (by simp [hj])) (g := g2) h3 (by
        intro j hj
        have hjk : j ≠ k := fun h => hkl (h ▸ hj)
        rw [h8 j hjk, h2, if_neg hjk]
        exact hn j (by simp [hj]))
      refine ⟨o, by simp only [checksLoop, e1, hg, e2]; exact e3, ?_, ?_⟩
      · rw [h9]
        constructor
        · rintro ⟨j, hj, hj'⟩; exact ⟨j, by simp [hj], hj'⟩
        · rintro ⟨j, hj, hj'⟩
          rcases List.mem_cons.1 hj with rfl | hj
          · rw [hc] at hj'; cases hj'
          · exact ⟨j, hj, hj'⟩
      · intro g' hg'
        obtain ⟨h11, h12, h13⟩ := h10 g' hg'
        refine ⟨h11, ?_, ?_⟩
        · intro j hj
          rcases List.mem_cons.1 hj with rfl | hj
          · refine ⟨c2, by rw [h13 j hkl, h4], h6, ?_⟩
            intro x
            rw [h7]
            constructor
            · rintro (⟨u, hu, _⟩ | h)
              · simp [CharObj.getVariants, sortAsc] at hu
              · exact ⟨c, hc, h⟩
            · rintro ⟨c', hc', h⟩
              rw [hc] at hc'; cases hc'
              exact Or.inr h
          · exact h12 j hj
        · intro j hj
          have hj1 : j ≠ k := fun h => hj (by simp [h])
          rw [h13 j (fun h => hj (by simp [h])), h8 j hj1, h2, if_neg hj1]

/-- **C88** For a list of distinct code point sequences, the checks raise nothing; without a set there is no
answer; a set with members outside the table passes neither check; otherwise the set is symmetric iff every
mapping of a member leads to a member which is mapped back, and transitive iff every mapping leads to a member
whose other mappings are mappings of the first one. -/
theorem checks_exact {idn : Repertoire} (hidn : WF idn) (si : List Seq) (hs : si.Nodup) (hne : ∀ k ∈ si, k ≠ []) :
    ∃ s t, setChecks idn si = .ok (s, t) ∧
      (si = [] → s = none ∧ t = none) ∧
      (si ≠ [] → s.isSome ∧ t.isSome ∧
        (s = some true ↔ (∀ a ∈ si, (idn.lookup a).isSome) ∧
          ∀ a ∈ si, ∀ b, MapsTo idn a b → b ∈ si ∧ MapsTo idn b a) ∧
        (t = some true ↔ (∀ a ∈ si, (idn.lookup a).isSome) ∧
          ∀ a ∈ si, ∀ b, MapsTo idn a b → b ∈ si ∧ ∀ c, MapsTo idn b c → c ≠ a → MapsTo idn a c)) := by
  by_cases h0 : si = []
  · subst h0
    exact ⟨none, none, rfl, by simp, by simp⟩
  have hw0 : WF ({} : LGR).rep := (run_wf []).1
  obtain ⟨o, e, h1, h2⟩ := loop_spec hidn si hs hne hw0 (by
    intro k _; cases k <;> simp [lookup, bucket, dget])
  cases o with
  | none =>
    refine ⟨some false, some false, by unfold setChecks; rw [if_neg h0, e], by simp [h0], fun _ => ?_⟩
    obtain ⟨k, hk, hk'⟩ := h1.1 rfl
    refine ⟨rfl, rfl, ?_, ?_⟩
    · simp only [Option.some.injEq, Bool.false_eq_true, false_iff]
      intro h; have := h.1 k hk; rw [hk'] at this; cases this
    · simp only [Option.some.injEq, Bool.false_eq_true, false_iff]
      intro h; have := h.1 k hk; rw [hk'] at this; cases this
  | some g =>
    obtain ⟨h3, h4, h5⟩ := h2 g rfl
    have hin : ∀ a ∈ si, (idn.lookup a).isSome := by
      intro a ha
      rw [Option.isSome_iff_ne_none]
      intro h
      have := h1.2 ⟨a, ha, h⟩
      cases this
    have hIn : ∀ a, In g a ↔ a ∈ si := by
      intro a
      constructor
      · rintro ⟨c, hc⟩
        by_contra hn
        rw [h5 a hn] at hc
        cases a <;> simp [lookup, bucket, dget] at hc
      · intro ha
        obtain ⟨c, hc, _⟩ := h4 a ha
        exact ⟨c, hc⟩
    have hMaps : ∀ a x, (∃ v, Maps g a v ∧ v.cp = x) ↔ a ∈ si ∧ MapsTo idn a x := by
      intro a x
      constructor
      · rintro ⟨v, ⟨c, hc, hv⟩, hx⟩
        have ha := (hIn a).1 ⟨c, hc⟩
        obtain ⟨c', hc', _, h6⟩ := h4 a ha
        rw [hc] at hc'; cases hc'
        exact ⟨ha, (h6 x).1 ⟨v, hv, hx⟩⟩
      · rintro ⟨ha, hm⟩
        obtain ⟨c', hc', _, h6⟩ := h4 a ha
        obtain ⟨v, hv, hx⟩ := (h6 x).2 hm
        exact ⟨v, ⟨c', hc', hv⟩, hx⟩
    have hplain : ∀ a v, Maps g a v → v.whenR = none ∧ v.notWhenR = none := by
      rintro a v ⟨c, hc, hv⟩
      obtain ⟨c', hc', h6, _⟩ := h4 a ((hIn a).1 ⟨c, hc⟩)
      rw [hc] at hc'; cases hc'
      rw [h6 v hv]; exact ⟨rfl, rfl⟩
    obtain ⟨⟨s, es⟩, hs1⟩ := (check_symmetry_returns_iff none g h3 false).2 (by simp [IdnaOk])
    obtain ⟨⟨t, ts⟩, ht1⟩ := (C27.check_transitivity_returns_iff none g h3).2 (by simp [IdnaOk])
    refine ⟨some s, some t, by unfold setChecks; rw [if_neg h0, e]; simp only [hs1, ht1], by simp [h0], fun _ => ?_⟩
    refine ⟨rfl, rfl, ?_, ?_⟩
    · rw [Option.some.injEq, check_symmetry_rules_exact none g h3 s es hs1]
      constructor
      · intro h
        refine ⟨hin, fun a ha b hb => ?_⟩
        obtain ⟨v, hv, hvb⟩ := (hMaps a b).2 ⟨ha, hb⟩
        obtain ⟨h6, ⟨w, h7, h8⟩, _⟩ := h a v hv
        subst hvb
        exact ⟨(hIn _).1 h6, ((hMaps v.cp a).1 ⟨w, h7, h8⟩).2⟩
      · rintro ⟨_, h⟩ a b hm
        obtain ⟨ha, hb⟩ := (hMaps a b.cp).1 ⟨b, hm, rfl⟩
        obtain ⟨h6, h7⟩ := h a ha b.cp hb
        refine ⟨(hIn _).2 h6, (hMaps b.cp a).2 ⟨h6, h7⟩, ?_, ?_⟩
        · intro r hr; rw [(hplain a b hm).1] at hr; cases hr
        · intro r hr; rw [(hplain a b hm).2] at hr; cases hr
    · rw [Option.some.injEq, C27.check_transitivity_exact none g h3 t ts ht1]
      constructor
      · intro h
        refine ⟨hin, fun a ha b hb => ?_⟩
        obtain ⟨v, hv, hvb⟩ := (hMaps a b).2 ⟨ha, hb⟩
        obtain ⟨h6, h7⟩ := h a v hv
        subst hvb
        refine ⟨(hIn _).1 h6, fun c hc hca => ?_⟩
        obtain ⟨w, hw, hwc⟩ := (hMaps v.cp c).2 ⟨(hIn _).1 h6, hc⟩
        subst hwc
        exact ((hMaps a w.cp).1 (h7 w hw hca)).2
      · rintro ⟨_, h⟩ a b hm
        obtain ⟨ha, hb⟩ := (hMaps a b.cp).1 ⟨b, hm, rfl⟩
        obtain ⟨h6, h7⟩ := h a ha b.cp hb
        refine ⟨(hIn _).2 h6, fun c hc hca => ?_⟩
        exact (hMaps a c.cp).2 ⟨ha, h7 c.cp ((hMaps b.cp c.cp).1 ⟨c, hc, rfl⟩).2 hca⟩

/-- Two variants with different rules, one direction of which has another rule: symmetric; not transitive. -/
example :
    let g := LGR.run {} [(C06.ctx0, .addCp (.int 97) {}), (C06.ctx0, .addCp (.int 98) {}), (C06.ctx0, .addCp (.int 99) {}),
      (C06.ctx0, .addVariant (.int 97) (.int 98) (some "blocked") { whenR := some "r" }),
      (C06.ctx0, .addVariant (.int 97) (.int 98) (some "blocked") { whenR := some "s" }),
      (C06.ctx0, .addVariant (.int 98) (.int 97) (some "blocked") { whenR := some "r" }),
      (C06.ctx0, .addVariant (.int 98) (.int 99) none {}), (C06.ctx0, .addVariant (.int 99) (.int 98) none {})]
    WF g.rep ∧ g.rep.getVariantSets true = [[[97], [98], [99]]] ∧
    setChecks g.rep [[97], [98], [99]] = .ok (some true, some false) :=
  ⟨(run_wf _).1, by decide +kernel, by decide +kernel⟩

end Lgr.Props.C88
