import Verif.Props.ReviewMappings

/-!
# C86, C90: wrong comparisons; the result on a mapping
-/

namespace Lgr.Props.C86
open Lgr Review

/-- A variant `b`. -/
def variant (w n : Option String) (t : String) : Variant := { cp := [98], type := some t, whenR := w, notWhenR := n }

def both (l : List Variant) : VData := { fwd := l, rev := l }

/-- The variants are the same, as far as conditions and types go. -/
def Equal (l m : List Variant) : Prop :=
  ∀ w n t, (∃ v ∈ l, v.whenR = w ∧ v.notWhenR = n ∧ v.type = t) ↔ ∃ v ∈ m, v.whenR = w ∧ v.notWhenR = n ∧ v.type = t

/-- **C86** is violated for several variants: a match, though the table has a variant for one more condition;
in the other order of iteration it is none. -/
theorem match_wrong :
    let i := [variant (some "r") none "blocked", variant (some "s") none "blocked"]
    let r := [variant (some "r") none "blocked"]
    ¬ Equal i r ∧
    (variantVerdict id false false (both i) (both r) false true).toOption.map Prod.fst = some .matched ∧
    (variantVerdict List.reverse false false (both i) (both r) false true).toOption.map Prod.fst = some .manualCheck := by
  refine ⟨fun h => ?_, by decide +kernel, by decide +kernel⟩
  obtain ⟨v, hv, h1, _⟩ := (h (some "s") none (some "blocked")).1 ⟨variant (some "s") none "blocked", by simp, rfl, rfl, rfl⟩
  simp at hv
  subst hv
  revert h1
  decide

/-- The type of one variant is the same, that of the other is more permissive: one of the pairs is held to be
stricter, so the types are "unknown". -/
theorem unknown_wrong :
    let i := [variant (some "r") none "blocked", variant none none "allocatable"]
    let r := [variant (some "r") none "blocked", variant none none "blocked"]
    checkType id (both i) (both r) false = some .unknown := by
  decide +kernel

/-- The remark says that the table has no rule; it has another one. -/
theorem remark_wrong :
    checkRules id (both [variant none (some "r") "blocked"]) (both [variant none (some "s") "blocked"]) false = .missing ∧
    checkRules id (both [variant (some "r") none "blocked"]) (both [variant none (some "r") "blocked"]) false = .missing ∧
    checkRules id (both [variant (some "r") none "blocked"]) (both [variant (some "s") none "blocked"]) false = .different := by
  decide +kernel

/-- One variant each. -/
example :
    let i := both [variant (some "r") none "blocked"]
    let r := both [variant (some "r") none "allocatable"]
    Has (variant (some "r") none "blocked") (.when "r") ∧ Has (variant (some "r") none "allocatable") (.when "r") ∧
    (variantVerdict id false false i r false true).toOption.map Prod.fst = some .note ∧
    Says (.when "r") (some "blocked") (.when "r") (some "allocatable") .note :=
  ⟨⟨by decide, rfl, rfl⟩, ⟨by decide, rfl, rfl⟩, by decide +kernel, rfl, "blocked", "allocatable", rfl, rfl, by decide, by decide, by decide⟩

end Lgr.Props.C86

namespace Lgr.Props.C90
open Lgr Review Repertoire C88 C89 C86

variable {order : List Variant → List Variant} {cps : List Seq → List Seq} {idn ref : Repertoire}

theorem entry_parts {rep : Repertoire} {im rm : Bool} {missing : Option Seq} {a : Seq} {i r : VData} {e : VarEntry}
    (h : varEntry order rep im rm missing a i r = .ok e) :
    variantVerdict order im rm i r false (r.inRepertoire rep) = .ok e.fwd ∧
    variantVerdict order im rm i r true (r.inRepertoire rep) = .ok e.rev ∧
    e.destInIdn = i.inLgr ∧ e.destInRef = r.inLgr ∧ e.symmetric = checkSym i r := by
  unfold varEntry at h
  simp only at h
  split at h
  · cases h
  · rename_i f hf
    split at h
    · cases h
    · rename_i b hb
      injection h with h
      subst h
      exact ⟨hf, hb, rfl, rfl, rfl⟩

/-- Only `v` maps `a` to `b`. -/
def Only (r : Repertoire) (a b : Seq) (v : Variant) : Prop := ∀ u, Var r a b u ↔ u = v

theorem single_of {l : List Variant} {r : Repertoire} {a b : Seq} {v : Variant} (hn : l.Nodup)
    (hl : ∀ u, u ∈ l ↔ Var r a b u) (ho : Only r a b v) : l = [v] := by
  have : ∀ u, u ∈ l ↔ u = v := fun u => (hl u).trans (ho u)
  cases l with
  | nil => exact absurd ((this v).2 rfl) (by simp)
  | cons x l =>
    have hx : x = v := (this x).1 (by simp)
    subst hx
    cases l with
    | nil => rfl
    | cons y l =>
      have hy : y = x := (this y).1 (by simp)
      subst hy
      simp at hn

theorem empty_of {l : List Variant} {r : Repertoire} {a b : Seq} (hl : ∀ u, u ∈ l ↔ Var r a b u) :
    l = [] ↔ ¬ MapsTo r a b := by
  rw [mapsTo_iff, List.eq_nil_iff_forall_not_mem]
  simp only [hl, not_exists]

theorem cpOf_of {l : List Variant} {r : Repertoire} {a b : Seq} (hl : ∀ u, u ∈ l ↔ Var r a b u) (hm : MapsTo r a b) :
    cpOf l = b :=
  cpOf_all (fun h => (empty_of hl).1 h hm) (fun u hu => by
    obtain ⟨_, _, _, h⟩ := (hl u).1 hu; exact h)

/-- **C90** For a symmetric table and reference, for mappings between different code points: the results of
an entry are as follows. The set is only in the reference: review. Only in the table: manual check. Otherwise, if
the mapping is only in the reference: review if the table has both code points, otherwise a note; only in the
table: manual check; in both, with one variant each: what C86 says. -/
theorem result_partial (hi : WF idn) (hr : WF ref) (ho : ∀ l, (order l).Perm l) (hcps : ∀ l, (cps l).Perm l)
    (hs : Sym idn) (ht : Sym ref)
    {l : List SetReport} (h : variantSetsReport order cps idn ref = .ok l) (e : SetReport) (he : e ∈ l)
    (x : VarEntry) (hx : x ∈ e.report) (hne : x.source ≠ x.dest) :
    (e.idn = [] → x.fwd.1 = .review ∧ x.rev.1 = .review) ∧
    (e.idn ≠ [] → e.ref = [] → x.fwd.1 = .manualCheck ∧ x.rev.1 = .manualCheck) ∧
    (e.idn ≠ [] → e.ref ≠ [] →
      (¬ MapsTo idn x.source x.dest →
        if idn.hasCp x.source ∧ idn.hasCp x.dest then x.fwd.1 = .review ∧ x.rev.1 = .review
        else x.fwd.1 = .note ∧ x.rev.1 = .note) ∧
      (¬ MapsTo ref x.source x.dest → x.fwd.1 = .manualCheck ∧ x.rev.1 = .manualCheck) ∧
      ∀ v w a b, Has v a → Has w b → v.type ≠ some "" → w.type ≠ some "" →
        (Only idn x.source x.dest v → Only ref x.source x.dest w → ∀ y, x.fwd.1 = y ↔ Says a v.type b w.type y) ∧
        (Only idn x.dest x.source v → Only ref x.dest x.source w → ∀ y, x.rev.1 = y ↔ Says a v.type b w.type y)) := by
  have hg := report_good hi hr ho hcps h e he
  obtain ⟨-, missing, hrow⟩ := hg.row x hx
  obtain ⟨i, r, hent, n1, n2, n3, n4, -, -, -, hdat⟩ := hrow.made
  obtain ⟨⟨di1, di2⟩, dr1, dr2⟩ := hdat hs ht hne
  obtain ⟨p1, p2, -⟩ := entry_parts hent
  have ho1 : ∀ v, order [v] = [v] := fun v => List.perm_singleton.1 (ho [v])
  refine ⟨?_, ?_, ?_⟩
  · intro h1
    simp only [h1, variantVerdict, decide_true, if_true] at p1 p2
    injection p1 with p1
    injection p2 with p2
    rw [← p1, ← p2]; exact ⟨rfl, rfl⟩
  · intro h1 h2
    simp only [h1, h2, variantVerdict, decide_true, decide_false, if_true, Bool.false_eq_true, if_false] at p1 p2
    injection p1 with p1
    injection p2 with p2
    rw [← p1, ← p2]; exact ⟨rfl, rfl⟩
  · intro h1 h2
    simp only [h1, h2, decide_false] at p1 p2
    refine ⟨?_, ?_, ?_⟩
    · intro h3
      have h4 : MapsTo ref x.source x.dest := hrow.maps.resolve_left h3
      have h5 : i.fwd = [] := (empty_of di1).2 h3
      have h6 : r.fwd ≠ [] := fun h7 => (empty_of dr1).1 h7 h4
      have h7 : r.rev ≠ [] := fun h8 => (empty_of dr2).1 h8 (ht _ _ h4)
      have h8 : r.inRepertoire idn = (idn.hasCp x.dest && idn.hasCp x.source) := by
        unfold VData.inRepertoire
        rw [cpOf_of dr1 h4, cpOf_of dr2 (ht _ _ h4)]
        simp [h6, h7]
      simp only [variantVerdict, h5, if_true, Bool.false_eq_true, if_false, h8] at p1 p2
      split
      · rename_i h9
        rw [h9.1, h9.2] at p1 p2
        simp only [Bool.and_self, if_true] at p1 p2
        injection p1 with p1
        injection p2 with p2
        rw [← p1, ← p2]; exact ⟨rfl, rfl⟩
      · rename_i h9
        have : (idn.hasCp x.dest && idn.hasCp x.source) = false := by
          rw [Bool.and_eq_false_iff]
          by_contra h10
          push Not at h10
          exact h9 ⟨by simpa using h10.2, by simpa using h10.1⟩
        rw [this] at p1 p2
        simp only [Bool.false_eq_true, if_false] at p1 p2
        injection p1 with p1
        injection p2 with p2
        rw [← p1, ← p2]; exact ⟨rfl, rfl⟩
    · intro h3
      have h4 : MapsTo idn x.source x.dest := hrow.maps.resolve_right h3
      have h5 : r.fwd = [] := (empty_of dr1).2 h3
      have h6 : i.fwd ≠ [] := fun h7 => (empty_of di1).1 h7 h4
      simp only [variantVerdict, h5, h6, if_true, Bool.false_eq_true, if_false] at p1 p2
      injection p1 with p1
      injection p2 with p2
      rw [← p1, ← p2]; exact ⟨rfl, rfl⟩
    · intro v w a b ha hb hv hw
      constructor
      · intro o1 o2
        have e1 := single_of n1 di1 o1
        have e2 := single_of n3 dr1 o2
        obtain ⟨p, hp, hp'⟩ := single_partial (rev := false) ho1 (i := i) (r := r) (by simpa using e1) (by simpa using e2)
          (by rw [e1]; simp) (by rw [e2]; simp) ha hb hv hw (r.inRepertoire idn)
        rw [p1] at hp
        injection hp with hp
        rw [hp]; exact hp'
      · intro o1 o2
        have e1 := single_of n2 di2 o1
        have e2 := single_of n4 dr2 o2
        have m1 : MapsTo idn x.source x.dest := hs _ _ (mapsTo_iff.2 ⟨v, (o1 v).2 rfl⟩)
        have m2 : MapsTo ref x.source x.dest := ht _ _ (mapsTo_iff.2 ⟨w, (o2 w).2 rfl⟩)
        obtain ⟨p, hp, hp'⟩ := single_partial (rev := true) ho1 (i := i) (r := r) (by simpa using e1) (by simpa using e2)
          (fun h3 => (empty_of di1).1 h3 m1) (fun h3 => (empty_of dr1).1 h3 m2) ha hb hv hw (r.inRepertoire idn)
        rw [p2] at hp
        injection hp with hp
        rw [hp]; exact hp'

/-- A symmetric table and reference: one mapping in both, one in the reference only. -/
example :
    let idn := (LGR.run {} (C87.clique [97, 98] ++ [C84.cp 99])).rep
    let ref := (LGR.run {} (C87.clique [97, 98, 99])).rep
    WF idn ∧ WF ref ∧ Sym idn ∧ Sym ref ∧
    (variantSetsReport id id idn ref).toOption.map (·.flatMap (fun e => e.report.map (fun x => (x.source, x.dest, x.fwd.1)))) =
      some [([97], [98], .matched), ([97], [99], .review), ([98], [99], .review)] := by
  have key : ∀ (r : Repertoire), WF r →
      (∀ c ∈ r.allChars, ∀ v ∈ c.getVariants, (r.lookup v.cp).any (fun d => d.getVariants.any (fun w => w.cp == c.cp))) →
      Sym r := by
    rintro r h h1 a b ⟨c, hc, v, hv, he⟩
    obtain ⟨⟨d, hd, w, hw, he'⟩, _⟩ := C84.symmetric_of_all h h1 a b ⟨⟨c, hc, v, hv, he⟩, Or.inl rfl⟩
    exact ⟨d, hd, w, hw, he'⟩
  exact ⟨(run_wf _).1, (run_wf _).1, key _ (run_wf _).1 (by decide +kernel), key _ (run_wf _).1 (by decide +kernel),
    by decide +kernel⟩

/-- **C90** is violated for an asymmetric table: the reference maps `b` to `a`, but the entry for this mapping says
that it does not. -/
theorem asymmetric_wrong :
    let idn := (LGR.run {} [C84.cp 97, C84.cp 98, C84.var 98 97]).rep
    let ref := (LGR.run {} (C87.clique [97, 98])).rep
    ref.getVariant [98] [97] = .ok (some [{ cp := [97] }]) ∧
    (variantSetsReport id id idn ref).toOption.map (·.flatMap (fun e => e.report.map (fun x => (x.source, x.dest, x.fwd)))) =
      some [([98], [97], (.manualCheck, "Variant member exists in IDN Table but not in the reference LGR")),
        ([97], [98], (.review, "Variant member exists in the reference LGR"))] := by
  decide +kernel

/-- **C90** is violated for reflexive mappings: of two variants only the first is compared. -/
theorem reflexive_wrong :
    let v (o : Option String) : LGR.Ctx × LGR.Op := (C06.ctx0, .addVariant (.int 97) (.int 97) (some "blocked") { whenR := o })
    let w : LGR.Ctx × LGR.Op := (C06.ctx0, .addVariant (.int 97) (.int 97) (some "allocatable") { })
    let idn := (LGR.run {} ([C84.cp 97, C84.cp 98, C84.var 97 98, C84.var 98 97] ++ [v (some "r"), w])).rep
    let ref := (LGR.run {} ([C84.cp 97, C84.cp 98, C84.var 97 98, C84.var 98 97] ++ [v (some "r")])).rep
    idn ≠ ref ∧
    (variantSetsReport id id idn ref).toOption.map (·.flatMap (fun e => e.report.map (fun x => (x.source, x.dest, x.fwd.1)))) =
      some [([97], [97], .matched), ([97], [98], .matched)] := by
  decide +kernel

end Lgr.Props.C90

namespace Lgr.Props.C91
open Lgr Review Repertoire C88 C89

variable {order : List Variant → List Variant} {cps : List Seq → List Seq} {idn ref : Repertoire}

theorem loop_relevant {si sr : List Seq} {missing : Option Seq} (l : List Seq) (s s' : SetState)
    (he : setLoop order cps idn ref si sr missing s l = .ok s') (k : Seq) :
    k ∈ s'.relevant ↔ k ∈ s.relevant ∨ (k ∈ l ∧ (idn.lookup k).isSome) := by
  induction l generalizing s with
  | nil => simp only [setLoop] at he; injection he with he; subst he; simp
  | cons a l ih =>
    simp only [setLoop] at he
    split at he
    · cases he
    · rename_i s1 h1
      rw [ih s1 he]
      have : k ∈ s1.relevant ↔ k ∈ s.relevant ∨ (k = a ∧ (idn.lookup k).isSome) := by
        unfold setStep at h1
        cases hc : idn.getChar a with
        | error e =>
          have hl : idn.lookup a = none := by
            cases hd : idn.lookup a with
            | none => rfl
            | some d => rw [getChar_ok.2 hd] at hc; cases hc
          simp only [hc] at h1
          split at h1
          · cases h1
          · injection h1 with h1; subst h1
            constructor
            · exact Or.inl
            · rintro (h | ⟨rfl, h⟩)
              · exact h
              · rw [hl] at h; cases h
        | ok c =>
          have hl := getChar_ok.1 hc
          simp only [hc] at h1
          split at h1
          · cases h1
          · injection h1 with h1; subst h1
            simp only [List.mem_append, List.mem_singleton]
            refine or_congr Iff.rfl ⟨?_, fun h => h.1⟩
            rintro rfl
            exact ⟨rfl, by rw [hl]; rfl⟩
      rw [this]
      simp only [List.mem_cons]
      tauto

/-- **C91** The relevant repertoire of a set of the table is the list of the compared code points which are in
the table; for a set of the reference alone, code points of the table. -/
theorem relevant_exact {l : List SetReport} (h : variantSetsReport order cps idn ref = .ok l) (e : SetReport) (he : e ∈ l) :
    e.relevant ≠ [] ∧ e.relevant.Pairwise (· < ·) ∧ (∀ k ∈ e.relevant, (idn.lookup k).isSome) ∧
    (∀ k, (k ∈ e.idn ∨ k ∈ e.ref) → (idn.lookup k).isSome → k ∈ e.relevant) ∧
    (e.idn ≠ [] → ∀ k ∈ e.relevant, k ∈ e.idn ∨ k ∈ e.ref) := by
  unfold variantSetsReport at h
  split at h
  · cases h
  obtain ⟨s, t, h1⟩ := setsLoop_from _ l h e he
  unfold setReport at h1
  split at h1
  · cases h1
  split at h1
  · cases h1
  rename_i es rel hes
  split at h1
  · cases h1
  rename_i hrel
  injection h1 with h1
  injection h1 with h1
  subst h1
  unfold setEntries at hes
  split at hes
  · cases hes
  rename_i missing rel0 hm
  split at hes
  · cases hes
  rename_i st hl
  injection hes with hes
  injection hes with hes1 hes2
  subst hes2
  have hmem : ∀ k, k ∈ sortAsc id st.relevant.dedup ↔ k ∈ rel0 ∨ ((k ∈ s ∨ k ∈ t) ∧ (idn.lookup k).isSome) := by
    intro k
    rw [mem_sortAsc, List.mem_dedup, loop_relevant _ _ _ hl k, mem_sortAsc, List.mem_dedup, List.mem_append]
  have hrel0 : (∀ k ∈ rel0, (idn.lookup k).isSome) ∧ (s ≠ [] → rel0 = []) := by
    split at hm
    · rename_i hs
      refine ⟨?_, fun h2 => absurd hs h2⟩
      clear hmem hrel hl
      revert hm
      generalize t = t'
      induction t' with
      | nil => intro hm; simp only [missingSequence] at hm; injection hm with hm; injection hm with _ hm; subst hm; simp
      | cons c t' ih =>
        intro hm
        unfold missingSequence at hm
        simp only at hm
        split at hm
        · split at hm
          · cases hm
          · injection hm with hm
            injection hm with _ hm
            subst hm
            intro k hk
            obtain ⟨x, hx, rfl⟩ := List.mem_map.1 hk
            rw [List.mem_filter] at hx
            rw [← hasCp_iff]; exact hx.2
        · exact ih hm
    · injection hm with hm
      injection hm with _ hm
      subst hm
      simp
  refine ⟨hrel, ?_, ?_, ?_, ?_⟩
  · have h1 := sortAsc_sorted (id : Seq → Seq) st.relevant.dedup
    have h2 := (sortAsc_perm (id : Seq → Seq) st.relevant.dedup).nodup_iff.2 (List.nodup_dedup _)
    exact (h1.and h2).imp (fun ⟨h3, h4⟩ => lt_of_le_of_ne h3 h4)
  · intro k hk
    rcases (hmem k).1 hk with h2 | h2
    · exact hrel0.1 k h2
    · exact h2.2
  · intro k hk hk'; exact (hmem k).2 (Or.inr ⟨hk, hk'⟩)
  · intro hs k hk
    rcases (hmem k).1 hk with h2 | h2
    · rw [hrel0.2 hs] at h2; cases h2
    · exact h2.1

/-- **C91** What is said to be in an LGR is there; for symmetric LGRs, `dest_in_idn` and `dest_in_ref` say in which of
the LGRs the mapping is. Missing: destinations that are in the LGR without the mapping. -/
theorem dest_partial (hi : WF idn) (hr : WF ref) (ho : ∀ l, (order l).Perm l) (hcps : ∀ l, (cps l).Perm l)
    {l : List SetReport} (h : variantSetsReport order cps idn ref = .ok l) (e : SetReport) (he : e ∈ l)
    (x : VarEntry) (hx : x ∈ e.report) :
    (x.destInIdn = true → (idn.lookup x.dest).isSome) ∧ (x.destInRef = true → (ref.lookup x.dest).isSome) ∧
    (Sym idn → Sym ref → (x.destInIdn = true ↔ MapsTo idn x.source x.dest) ∧ (x.destInRef = true ↔ MapsTo ref x.source x.dest)) := by
  have hg := report_good hi hr ho hcps h e he
  obtain ⟨-, missing, hrow⟩ := hg.row x hx
  obtain ⟨i, r, hent, -, -, -, -, h1, h2, h3, -⟩ := hrow.made
  obtain ⟨-, -, p1, p2, -⟩ := C90.entry_parts hent
  rw [p1, p2]
  exact ⟨h1, h2, h3⟩

theorem types_single {d : VData} {rev : Bool} {v : Variant} (h : (if rev then d.rev else d.fwd) = [v]) :
    d.types rev = v.type.getD "" := by
  unfold VData.types
  rw [h]
  cases hv : v.type with
  | none => simp [hv, sortAsc]
  | some t => simp [hv, sortAsc]

/-- **C91** A mapping with one variant in each direction is said to be symmetric exactly if, in each LGR which has it,
both directions have the same type (or none). -/
theorem symmetric_partial (hi : WF idn) (hr : WF ref) (ho : ∀ l, (order l).Perm l) (hcps : ∀ l, (cps l).Perm l)
    (hs : Sym idn) (ht : Sym ref)
    {l : List SetReport} (h : variantSetsReport order cps idn ref = .ok l) (e : SetReport) (he : e ∈ l)
    (x : VarEntry) (hx : x ∈ e.report) (hne : x.source ≠ x.dest) {v v' w w' : Variant} :
    (C90.Only idn x.source x.dest v → C90.Only idn x.dest x.source v' →
      (C90.Only ref x.source x.dest w → C90.Only ref x.dest x.source w' →
        x.symmetric = some (decide (v.type.getD "" = v'.type.getD "" ∧ w.type.getD "" = w'.type.getD ""))) ∧
      (¬ MapsTo ref x.source x.dest → x.symmetric = some (decide (v.type.getD "" = v'.type.getD "")))) ∧
    (¬ MapsTo idn x.source x.dest → C90.Only ref x.source x.dest w → C90.Only ref x.dest x.source w' →
      x.symmetric = some (decide (w.type.getD "" = w'.type.getD ""))) := by
  have hg := report_good hi hr ho hcps h e he
  obtain ⟨-, missing, hrow⟩ := hg.row x hx
  obtain ⟨i, r, hent, n1, n2, n3, n4, -, -, -, hdat⟩ := hrow.made
  obtain ⟨⟨di1, di2⟩, dr1, dr2⟩ := hdat hs ht hne
  obtain ⟨-, -, -, -, p⟩ := C90.entry_parts hent
  rw [p]
  unfold checkSym
  refine ⟨?_, ?_⟩
  · intro o1 o2
    have e1 := C90.single_of n1 di1 o1
    have e2 := C90.single_of n2 di2 o2
    rw [types_single (d := i) (rev := false) (v := v) (by simpa using e1),
      types_single (d := i) (rev := true) (v := v') (by simpa using e2)]
    refine ⟨?_, ?_⟩
    · intro o3 o4
      have e3 := C90.single_of n3 dr1 o3
      have e4 := C90.single_of n4 dr2 o4
      rw [types_single (d := r) (rev := false) (v := w) (by simpa using e3),
        types_single (d := r) (rev := true) (v := w') (by simpa using e4)]
      rw [if_pos ⟨by rw [e1]; simp, by rw [e3]; simp⟩]
      simp
    · intro h3
      have e3 : r.fwd = [] := (C90.empty_of dr1).2 h3
      rw [if_neg (by rw [e3]; simp), if_pos (by rw [e1]; simp)]
  · intro h3 o3 o4
    have e1 : i.fwd = [] := (C90.empty_of di1).2 h3
    have e3 := C90.single_of n3 dr1 o3
    have e4 := C90.single_of n4 dr2 o4
    rw [types_single (d := r) (rev := false) (v := w) (by simpa using e3),
        types_single (d := r) (rev := true) (v := w') (by simpa using e4)]
    rw [if_neg (by rw [e1]; simp), if_neg (by rw [e1]; simp), if_pos (by rw [e3]; simp)]

/-- **C91** is violated: the destination is in the table, but said not to be. -/
theorem dest_wrong :
    let idn := (LGR.run {} (C87.clique [97, 98] ++ [C84.cp 99])).rep
    let ref := (LGR.run {} (C87.clique [97, 98, 99])).rep
    (idn.lookup [99]).isSome ∧
    (variantSetsReport id id idn ref).toOption.map (·.flatMap (fun e => e.report.map (fun x => (x.source, x.dest, x.destInIdn)))) =
      some [([97], [98], true), ([97], [99], false), ([98], [99], false)] := by
  decide +kernel

/-- The relevant repertoire of a set of the reference alone. -/
example : (variantSetsReport id id (LGR.run {} [C84.cp 97]).rep (LGR.run {} (C87.clique [97, 98])).rep).toOption.map
    (·.map (fun e => (e.idn, e.ref, e.relevant))) = some [([], [[97], [98]], [[97]])] := by
  decide +kernel

end Lgr.Props.C91
