import Verif.Idna2008
import Verif.Props.Disposition
import Mathlib.Data.Finset.Card
import Mathlib.Data.Finset.Dedup

/-!
# C123: compliance with IDNA 2008
-/

namespace Lgr.Props.C123
open Lgr Idna2008 Repertoire

/-- The code point can be in a label: RFC 5892, the derived property is PVALID, CONTEXTJ or CONTEXTO. -/
def Valid (prop : Nat → String) (x : Nat) : Prop := prop x = "PVALID" ∨ prop x = "CONTEXTJ" ∨ prop x = "CONTEXTO"

theorem valid_iff {prop : Nat → String} {x : Nat} : prop x ∈ validValues ↔ Valid prop x := by
  simp [validValues, Valid]

theorem dset_ne_nil {β : Type} (d : List (Nat × β)) (k : Nat) (v : β) : dset d k v ≠ [] := by
  cases d with
  | nil => simp [dset]
  | cons p d => unfold dset; split <;> simp

theorem loop_all {prop : Nat → String} : ∀ (s : Seq) (bad : List (Nat × String)), (bad.map Prod.fst).Nodup →
    (((validLoop prop true bad s).1 = true ↔ bad = [] ∧ ∀ x ∈ s, Valid prop x) ∧
    ((validLoop prop true bad s).2.map Prod.fst).Nodup ∧
    (∀ x p, dget (validLoop prop true bad s).2 x = some p ↔
      ((x ∈ s ∧ ¬ Valid prop x) ∧ p = prop x) ∨ (¬ (x ∈ s ∧ ¬ Valid prop x) ∧ dget bad x = some p)))
  | [], bad, h => by simp [validLoop, h]
  | y :: s, bad, h => by
    unfold validLoop
    by_cases hy : prop y ∈ validValues
    · rw [if_pos hy]
      obtain ⟨h1, h2, h3⟩ := loop_all s bad h
      have hv := valid_iff.1 hy
      refine ⟨by rw [h1]; simp [hv], h2, fun x p => ?_⟩
      rw [h3]
      have : (x ∈ y :: s ∧ ¬ Valid prop x) ↔ (x ∈ s ∧ ¬ Valid prop x) := by
        rw [List.mem_cons]
        constructor
        · rintro ⟨rfl | hx, hn⟩
          · exact absurd hv hn
          · exact ⟨hx, hn⟩
        · rintro ⟨hx, hn⟩; exact ⟨Or.inr hx, hn⟩
      rw [this]
    · rw [if_neg hy, if_pos rfl]
      obtain ⟨h1, h2, h3⟩ := loop_all s (dset bad y (prop y)) (dset_nodup h _ _)
      have hv : ¬ Valid prop y := fun hv => hy (valid_iff.2 hv)
      refine ⟨?_, h2, fun x p => ?_⟩
      · rw [h1]; simp [hv, dset_ne_nil]
      · rw [h3]
        by_cases hxy : x = y
        · subst hxy
          rw [dget_dset, if_pos rfl]
          by_cases hs : x ∈ s <;> simp [hs, hv, eq_comm]
        · rw [dget_dset, if_neg (fun h => hxy h.symm)]
          simp [hxy]

theorem loop_first {prop : Nat → String} : ∀ (s : Seq),
    ((∀ x ∈ s, Valid prop x) ∧ validLoop prop false [] s = (true, [])) ∨
    ∃ pre x post, s = pre ++ x :: post ∧ (∀ y ∈ pre, Valid prop y) ∧ ¬ Valid prop x ∧
      validLoop prop false [] s = (false, [(x, prop x)])
  | [] => Or.inl ⟨by simp, rfl⟩
  | y :: s => by
    unfold validLoop
    by_cases hy : prop y ∈ validValues
    · rw [if_pos hy]
      rcases loop_first s with ⟨h1, h2⟩ | ⟨pre, x, post, rfl, h1, h2, h3⟩
      · exact Or.inl ⟨by simpa using ⟨valid_iff.1 hy, h1⟩, h2⟩
      · exact Or.inr ⟨y :: pre, x, post, rfl, by simpa using ⟨valid_iff.1 hy, h1⟩, h2, h3⟩
    · rw [if_neg hy, if_neg (by simp)]
      exact Or.inr ⟨[], y, s, rfl, by simp, fun hv => hy (valid_iff.2 hv), rfl⟩

/-- **C123**, sequences: a sequence is valid iff all its code points are. With `check_all` the dictionary has the code
points which are not, each once with its property; otherwise only the first one. -/
theorem valid_exact (prop : Nat → String) (s : Seq) :
    (∀ all, (validSeq prop all s).1 = true ↔ ∀ x ∈ s, Valid prop x) ∧
    ((validSeq prop true s).2.map Prod.fst).Nodup ∧
    (∀ x p, dget (validSeq prop true s).2 x = some p ↔ x ∈ s ∧ ¬ Valid prop x ∧ p = prop x) ∧
    (∀ x p, (x, p) ∈ (validSeq prop false s).2 ↔ ∃ pre post, s = pre ++ x :: post ∧ (∀ y ∈ pre, Valid prop y) ∧
      ¬ Valid prop x ∧ p = prop x) := by
  obtain ⟨h1, h2, h3⟩ := loop_all (prop := prop) s [] (by simp)
  unfold validSeq
  refine ⟨fun all => ?_, h2, fun x p => by rw [h3]; simp [and_assoc, dget], fun x p => ?_⟩
  · cases all with
    | true => rw [h1]; simp
    | false =>
      rcases loop_first (prop := prop) s with ⟨h1, h2⟩ | ⟨pre, x, post, rfl, h1, h2, h3⟩
      · rw [h2]; exact ⟨fun _ => h1, fun _ => rfl⟩
      · rw [h3]; exact ⟨fun h => by simp at h, fun h => absurd (h x (by simp)) h2⟩
  · clear h1 h2 h3
    rcases loop_first (prop := prop) s with ⟨h1, h2⟩ | ⟨pre, y, post, rfl, h1, h2, h3⟩
    · rw [h2]
      constructor
      · intro h; simp at h
      · rintro ⟨pre, post, rfl, _, hn, _⟩; exact absurd (h1 x (by simp)) hn
    · rw [h3]
      constructor
      · intro h
        simp only [List.mem_singleton, Prod.mk.injEq] at h
        obtain ⟨rfl, rfl⟩ := h
        exact ⟨pre, post, rfl, h1, h2, rfl⟩
      · rintro ⟨pre', post', he, h1', h2', rfl⟩
        rcases List.append_eq_append_iff.1 he with ⟨a, rfl, ha⟩ | ⟨a, rfl, ha⟩
        · rcases a with _ | ⟨z, a⟩
          · simp only [List.nil_append, List.cons.injEq] at ha; simp [ha.1]
          · simp only [List.cons_append, List.cons.injEq] at ha
            exact absurd (h1' y (by simp [ha.1])) h2
        · rcases a with _ | ⟨z, a⟩
          · simp only [List.nil_append, List.cons.injEq] at ha; simp [ha.1]
          · simp only [List.cons_append, List.cons.injEq] at ha
            exact absurd (h1 x (by simp [ha.1])) h2'

/-! ## The report -/

/-- The entry is marked as out of the repertoire by a variant to itself. -/
def Excluded (db : Db) (c : CharObj) : Prop :=
  ∃ v ∈ c.getVariants, v.cp = c.cp ∧ ∃ t, v.type = some t ∧ t ≠ "" ∧ "out-of-repertoire".isPrefixOf (db.lower t) = true

theorem excluded_iff {db : Db} {c : CharObj} (h : c.VarWF) : outOfRepertoire db c = true ↔ Excluded db c := by
  unfold outOfRepertoire Excluded
  rw [List.any_eq_true]
  constructor
  · rintro ⟨v, hv, h1⟩
    obtain ⟨h2, h3⟩ := (mem_reflexive h v).1 hv
    cases ht : v.type with
    | none => simp [ht] at h1
    | some t =>
      simp only [ht, Bool.and_eq_true, decide_eq_true_eq] at h1
      exact ⟨v, h2, h3, t, ht, h1.1, h1.2⟩
  · rintro ⟨v, h2, h3, t, ht, h4, h5⟩
    exact ⟨v, (mem_reflexive h v).2 ⟨h2, h3⟩, by simp [ht, h4, h5]⟩

theorem ok2003_iff {db : Db} : ∀ (s : Seq), compliant2003 db s = true ↔ ∀ x ∈ s, db.disallowed2003 x = false
  | [] => by simp [compliant2003]
  | x :: s => by
    unfold compliant2003
    cases hx : db.disallowed2003 x
    · simp [hx, ok2003_iff s]
    · simp [hx]

/-- The entry is to be listed. -/
def Bad (db : Db) (c : CharObj) : Prop := ¬ Excluded db c ∧ ∃ x ∈ c.cp, ¬ Valid db.prop x

theorem bad_iff {db : Db} {c : CharObj} (h : c.VarWF) :
    (!outOfRepertoire db c && !(validSeq db.prop false c.cp).1) = true ↔ Bad db c := by
  unfold Bad
  rw [← excluded_iff h, Bool.and_eq_true, Bool.not_eq_true', Bool.not_eq_true', Bool.eq_false_iff, Bool.eq_false_iff,
    Ne, Ne, (valid_exact db.prop c.cp).1]
  push Not
  rfl

theorem stored {r : Repertoire} (h : WF r) {c : CharObj} (hc : c ∈ r.allChars) : c.VarWF :=
  (lookup_charWF h ((mem_allChars h c).1 hc)).varWF

/-- The rows of the report are, in the order of the repertoire, those of the entries to be listed. -/
theorem rows_exact (db : Db) {r : Repertoire} (h : WF r) :
    ((check db r).rows.map Row.cp).Nodup ∧
    (∀ row, row ∈ (check db r).rows ↔ ∃ c, r.lookup row.cp = some c ∧ Bad db c ∧ row.props = row.cp.map db.prop ∧
      (row.ok2003 = true ↔ ∀ x ∈ row.cp, db.disallowed2003 x = false)) ∧
    ((check db r).rows.map Row.cp).Sublist (r.allChars.map CharObj.cp) := by
  have hsub : ((check db r).rows.map Row.cp).Sublist (r.allChars.map CharObj.cp) := by
    unfold check
    simp only [List.map_map, Function.comp_def]
    exact (List.filter_sublist).map _
  refine ⟨hsub.nodup (allChars_nodup h), fun row => ?_, hsub⟩
  unfold check
  simp only [List.mem_map, List.mem_filter]
  constructor
  · rintro ⟨c, ⟨hc, hb⟩, rfl⟩
    exact ⟨c, (mem_allChars h c).1 hc, (bad_iff (stored h hc)).1 hb, rfl, ok2003_iff _⟩
  · rintro ⟨c, hc, hb, hp, ho⟩
    have hcp := lookup_cp hc
    have hm : c ∈ r.allChars := (mem_allChars h c).2 (by rw [hcp]; exact hc)
    refine ⟨c, ⟨hm, (bad_iff (stored h hm)).2 hb⟩, ?_⟩
    obtain ⟨cp, props, ok⟩ := row
    simp only at hcp hp ho
    subst hcp hp
    rw [Row.mk.injEq]
    refine ⟨rfl, rfl, ?_⟩
    rw [← ok2003_iff] at ho
    exact (Bool.eq_iff_iff.2 ho).symm

/-- **C123** but for the number of compliant entries: the report lists each entry which is not marked as out of the
repertoire and has a code point that IDNA 2008 does not allow, once; an entry complies with IDNA 2003 iff none of its
code points is disallowed there; and the number is that of all other entries. -/
theorem report_partial (db : Db) {r : Repertoire} (h : WF r) :
    ((check db r).contains = true ↔ ∃ c ∈ r.allChars, Bad db c) ∧
    ((check db r).rows.map Row.cp).Nodup ∧
    (∀ row, row ∈ (check db r).rows ↔ ∃ c, r.lookup row.cp = some c ∧ Bad db c ∧ row.props = row.cp.map db.prop ∧
      (row.ok2003 = true ↔ ∀ x ∈ row.cp, db.disallowed2003 x = false)) ∧
    ∀ good : Finset Seq, (∀ k, k ∈ good ↔ ∃ c, r.lookup k = some c ∧ ¬ Bad db c) →
      (check db r).compliant = good.card := by
  obtain ⟨h1, h2, _⟩ := rows_exact db h
  refine ⟨?_, h1, h2, fun good hg => ?_⟩
  · have : (check db r).contains = true ↔ ∃ row, row ∈ (check db r).rows := by
      rw [show (check db r).contains = decide (0 < (check db r).rows.length) from rfl, decide_eq_true_iff,
        List.length_pos_iff_exists_mem]
    rw [this]
    constructor
    · rintro ⟨row, hr⟩
      obtain ⟨c, hc, hb, _⟩ := (h2 row).1 hr
      exact ⟨c, (mem_allChars h c).2 (by rw [lookup_cp hc]; exact hc), hb⟩
    · rintro ⟨c, hc, hb⟩
      exact ⟨⟨c.cp, c.cp.map db.prop, compliant2003 db c.cp⟩, (h2 _).2 ⟨c, (mem_allChars h c).1 hc, hb, rfl,
        ok2003_iff _⟩⟩
  · have hn : (check db r).compliant =
        ((r.allChars.filter fun c => !(!outOfRepertoire db c && !(validSeq db.prop false c.cp).1)).length : Int) := by
      unfold check
      simp only [List.length_map]
      rw [len_eq, List.length_eq_length_filter_add
        (fun c => !outOfRepertoire db c && !(validSeq db.prop false c.cp).1) (l := r.allChars)]
      push_cast
      omega
    rw [hn, ← List.length_map (f := CharObj.cp), ← List.toFinset_card_of_nodup
      (((List.filter_sublist).map _).nodup (allChars_nodup h))]
    congr 2
    ext k
    rw [List.mem_toFinset, hg, List.mem_map]
    simp only [List.mem_filter]
    constructor
    · rintro ⟨c, ⟨hc, hb⟩, rfl⟩
      refine ⟨c, (mem_allChars h c).1 hc, fun hbad => ?_⟩
      rw [(bad_iff (stored h hc)).2 hbad] at hb
      simp at hb
    · rintro ⟨c, hc, hb⟩
      have hcp := lookup_cp hc
      have hm : c ∈ r.allChars := (mem_allChars h c).2 (by rw [hcp]; exact hc)
      refine ⟨c, ⟨hm, ?_⟩, hcp⟩
      rw [Bool.not_eq_true', Bool.eq_false_iff]
      exact fun hx => hb ((bad_iff (stored h hm)).1 hx)

/-- The number is right if no entry is marked as out of the repertoire. -/
theorem number_partial (db : Db) {r : Repertoire} (h : WF r) (hx : ∀ c ∈ r.allChars, ¬ Excluded db c)
    (good : Finset Seq) (hg : ∀ k, k ∈ good ↔ r.hasCp k = true ∧ ∀ x ∈ k, Valid db.prop x) :
    (check db r).compliant = good.card := by
  refine (report_partial db h).2.2.2 good (fun k => ?_)
  rw [hg, hasCp_iff, Option.isSome_iff_exists]
  constructor
  · rintro ⟨⟨c, hc⟩, hv⟩
    refine ⟨c, hc, fun hb => ?_⟩
    obtain ⟨_, x, hx, hn⟩ := hb
    rw [lookup_cp hc] at hx
    exact hn (hv x hx)
  · rintro ⟨c, hc, hb⟩
    have hcp := lookup_cp hc
    refine ⟨⟨c, hc⟩, fun x hxk => ?_⟩
    by_contra hn
    exact hb ⟨hx c ((mem_allChars h c).2 (by rw [hcp]; exact hc)), x, by rw [hcp]; exact hxk, hn⟩

/-! ## Examples and violation -/

/-- `A` is disallowed, all else valid. -/
def db1 : Db := ⟨fun x => if x = 0x41 then "DISALLOWED" else "PVALID", fun x => decide (x = 0x41), id⟩

/-- `a`, `A`, and the sequence `b A`. -/
def rep1 : Repertoire := Repertoire.run {} [.addChar [0x61] {}, .addChar [0x41] {}, .addChar [0x62, 0x41] {}]

example : WF rep1 ∧ (∀ c ∈ rep1.allChars, ¬ Excluded db1 c) ∧ check db1 rep1 =
    ⟨true, [⟨[0x41], ["DISALLOWED"], false⟩, ⟨[0x62, 0x41], ["PVALID", "DISALLOWED"], false⟩], 1⟩ := by
  refine ⟨C01.wf_run _, fun c hc => ?_, by decide +kernel⟩
  rw [← excluded_iff (stored (C01.wf_run _) hc)]
  have : rep1.allChars.all (fun c => !outOfRepertoire db1 c) = true := by decide +kernel
  have := List.all_eq_true.1 this c hc
  simpa using this

/-- `A` marked as out of the repertoire. -/
def rep2 : Repertoire := Repertoire.run {} [.addChar [0x61] {}, .addChar [0x41] {},
  .addVariant [0x41] { cp := [0x41], type := some "out-of-repertoire-var" }]

/-- **C123** is violated: entries marked as out of the repertoire are counted as compliant, whatever their code
points. -/
theorem number_wrong : ∃ (db : Db) (r : Repertoire) (good : Finset Seq), WF r ∧
    (∀ k, k ∈ good ↔ r.hasCp k = true ∧ ∀ x ∈ k, Valid db.prop x) ∧ (check db r).compliant ≠ good.card := by
  refine ⟨db1, rep2, {[0x61]}, C01.wf_run _, fun k => ?_, by decide +kernel⟩
  rw [Finset.mem_singleton]
  constructor
  · rintro rfl; exact ⟨by decide +kernel, by simp [Valid, db1]⟩
  · rintro ⟨hk, hv⟩
    have hw : WF rep2 := C01.wf_run _
    rw [hasCp_iff, Option.isSome_iff_exists] at hk
    obtain ⟨c, hc⟩ := hk
    have hcp := lookup_cp hc
    have hm := List.mem_map_of_mem (f := CharObj.cp) ((mem_allChars hw c).2 (by rw [hcp]; exact hc))
    rw [hcp, show rep2.allChars.map CharObj.cp = [[0x61], [0x41]] by decide +kernel] at hm
    simp only [List.mem_cons, List.not_mem_nil, or_false] at hm
    rcases hm with rfl | rfl
    · rfl
    · have := hv 0x41 (by simp)
      simp [Valid, db1] at this

end Lgr.Props.C123
