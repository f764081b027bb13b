import Verif.Props.Xml
import Verif.Props.Rfc7940

/-!
# C93: the order of a written document
-/

namespace Lgr.Props.C93
open Lgr Xml Repertoire LGR C34

theorem failed_get (labels : List String) (cs : Rfc7940.Results) (l : String) :
    dget (failed cs labels) l = if l ∈ labels then some false else dget cs l := by
  unfold failed
  induction labels generalizing cs with
  | nil => simp
  | cons a labels ih =>
    rw [List.foldl_cons, ih]
    simp only [Rfc7940.addTestResult, true_or, if_true, dget_dset, List.mem_cons]
    by_cases h : l ∈ labels
    · simp [h]
    · by_cases ha : a = l
      · simp [ha]
      · simp [h, ha, Ne.symm ha]

theorem tested_get (cs : Rfc7940.Results) (a l : String) :
    dget (Rfc7940.addTestResult cs a true) l = if a = l then (dget cs l).or (some true) else dget cs l := by
  unfold Rfc7940.addTestResult
  by_cases ha : a = l
  · subst ha
    cases hd : dget cs a with
    | none => simp [dget_dset]
    | some b => simp [hd]
  · split
    · simp [dget_dset, ha]
    · simp [ha]

theorem notes_mem (p : Seq) (ks : List Seq) :
    ∀ l ∈ orderNotes p ks, l = "char_strict_ascending_order" ∨ l = "char_ascending_order" := by
  induction ks generalizing p with
  | nil => simp [orderNotes]
  | cons k ks ih =>
    intro l hl
    simp only [orderNotes, List.mem_append] at hl
    rcases hl with hl | hl
    · split at hl
      · split at hl <;> simp at hl <;> simp [hl]
      · simp at hl
    · exact ih k l hl

theorem notes_nil (p : Seq) (ks : List Seq) : orderNotes p ks = [] ↔ (p :: ks).IsChain (· < ·) := by
  induction ks generalizing p with
  | nil => simp [orderNotes]
  | cons k ks ih =>
    simp only [orderNotes, List.append_eq_nil_iff, List.isChain_cons_cons, ih]
    refine and_congr_left fun _ => ?_
    by_cases h : k ≤ p
    · simp only [h, if_true]
      constructor
      · intro h; simp at h
      · intro h'; exact absurd h (not_le.2 h')
    · simp [h, not_le.1 h]

/-- The order of the iteration: by first code point, then by length; nothing twice. -/
def Before (a b : Seq) : Prop :=
  a ≠ b ∧ (a.headD 0 < b.headD 0 ∨ (a.headD 0 = b.headD 0 ∧ a.length ≤ b.length))

theorem iter_before {r : Repertoire} (h : WF r) (hi : Intact r) : (r.iter.map CharObj.cp).Pairwise Before := by
  have hn := iter_nodup h
  have h2 : (r.iter.map CharObj.cp).Pairwise
      (fun a b => a.headD 0 < b.headD 0 ∨ (a.headD 0 = b.headD 0 ∧ a.length ≤ b.length)) := by
    rw [iter_cps h hi, List.pairwise_flatMap]
    have head : ∀ i, ∀ k ∈ part r i, k.headD 0 = i := by
      intro i k hk
      have := (part_mem h hk).1
      cases k with
      | nil => simp at this
      | cons a k => simpa using this
    constructor
    · intro i _
      refine (part_sorted r i).imp_of_mem ?_
      intro a b ha hb hab
      exact .inr ⟨(head i a ha).trans (head i b hb).symm, hab⟩
    · refine (C03.keys_sorted h).imp ?_
      intro i j hij a ha b hb
      rw [head i a ha, head j b hb]
      exact .inl hij
  exact hn.and h2

theorem singles_sublist (L : List CharObj) : (singles L).Sublist (L.map CharObj.cp) :=
  List.filter_sublist.map _

theorem not_strict (p : Seq) (ks : List Seq) (hp : p = [] ∨ ∀ k ∈ ks, Before p k) (hks : ∀ k ∈ ks, k ≠ [])
    (h : ks.Pairwise Before) : "char_strict_ascending_order" ∉ orderNotes p ks := by
  induction ks generalizing p with
  | nil => simp [orderNotes]
  | cons k ks ih =>
    rw [List.pairwise_cons] at h
    simp only [orderNotes, List.mem_append, not_or]
    refine ⟨?_, ih k (.inr h.1) (fun k hk => hks k (by simp [hk])) h.2⟩
    split
    · rename_i hle
      rw [if_neg]
      · decide
      · intro ht
        rcases hp with rfl | hp
        · simp at ht; exact hks k (by simp) ht
        · obtain ⟨hne, hb⟩ := hp k (by simp)
          have hk0 := hks k (by simp)
          have hlen : k.length ≤ p.length := by
            have := congrArg List.length ht
            rw [List.length_take] at this
            omega
          have hhead : p.headD 0 = k.headD 0 := by
            cases k with
            | nil => exact absurd rfl hk0
            | cons a k =>
              cases p with
              | nil => simp at ht
              | cons b p => simp at ht; simp [ht.1]
          rcases hb with hb | hb
          · omega
          · apply hne
            rw [← ht, List.take_of_length_le (by omega)]
    · simp

section
variable {db : UniDb} {strict force : Bool} {m : RefManager} {r : Repertoire}

/-- Reading what was written fails no check of a strictly ascending order, and reports no code point as
wrong. The check of ascending order fails exactly if the characters, as listed, are not in the order of
their code points (compared position by position). -/
theorem order_checks (hwf : WF r) (hi : Intact r)
    (h : ∀ k c, r.lookup k = some c → Readable db strict force m c) :
    ∃ es s', serializeData r = .ok es ∧
      parseData db force { lgr := { refs := m, raiseInvalid := strict } } es = (s', .ok ()) ∧
      dget s'.checks "char_strict_ascending_order" = some true ∧
      dget s'.checks "parse_xml" = none ∧ dget s'.checks "codepoint_valid" = none ∧
      dget s'.checks "char_ascending_order" = some (decide ((singles r.iter).Pairwise (· < ·))) := by
  obtain ⟨es, s', h1, h2, -, -, -, -, -, -, -, -, -, -, hc⟩ := data_round_trip_partial hwf hi h [] []
  have hne : ∀ k ∈ singles r.iter, k ≠ [] := by
    intro k hk
    obtain ⟨c, hc, rfl⟩ := List.mem_map.1 ((singles_sublist _).subset hk)
    intro h0
    have := ((mem_iter_intact hwf hi c).1 hc).1
    rw [h0] at this
    simp at this
  have hs : "char_strict_ascending_order" ∉ orderNotes [] (singles r.iter) :=
    not_strict [] _ (.inl rfl) hne ((iter_before hwf hi).sublist (singles_sublist _))
  refine ⟨es, s', h1, h2, ?_, ?_, ?_, ?_⟩
  · rw [hc, tested_get, if_pos rfl, tested_get, if_neg (by decide), failed_get, if_neg hs]
    rfl
  · rw [hc, tested_get, if_neg (by decide), tested_get, if_neg (by decide), failed_get, if_neg]
    · rfl
    · intro hm
      rcases notes_mem _ _ _ hm with h | h <;> simp at h
  · rw [hc, tested_get, if_neg (by decide), tested_get, if_neg (by decide), failed_get, if_neg]
    · rfl
    · intro hm
      rcases notes_mem _ _ _ hm with h | h <;> simp at h
  · rw [hc, tested_get, if_neg (by decide), tested_get, if_pos rfl, failed_get]
    have key : "char_ascending_order" ∉ orderNotes [] (singles r.iter) ↔ (singles r.iter).Pairwise (· < ·) := by
      have : "char_ascending_order" ∉ orderNotes [] (singles r.iter) ↔ orderNotes [] (singles r.iter) = [] := by
        constructor
        · intro hn
          rw [List.eq_nil_iff_forall_not_mem]
          intro l hl
          rcases notes_mem _ _ _ hl with rfl | rfl
          · exact hs hl
          · exact hn hl
        · intro hn; rw [hn]; simp
      rw [this, notes_nil, List.isChain_iff_pairwise, List.pairwise_cons]
      constructor
      · exact fun h => h.2
      · refine fun h => ⟨fun k hk => ?_, h⟩
        cases k with
        | nil => exact absurd rfl (hne _ hk)
        | cons a k => exact List.nil_lt_cons a k
    by_cases hm : "char_ascending_order" ∈ orderNotes [] (singles r.iter)
    · rw [if_pos hm, decide_eq_false (fun h => absurd hm (key.2 h))]
      rfl
    · rw [if_neg hm, decide_eq_true (key.1 hm)]
      rfl

/-- **C93, partial** The document written for an LGR without sequences passes the parser's checks of
ascending order. Missing: LGRs with sequences, see `sequences_out_of_order`. -/
theorem ascending_without_sequences_partial (hwf : WF r) (hi : Intact r)
    (h : ∀ k c, r.lookup k = some c → Readable db strict force m c)
    (hl : ∀ k c, r.lookup k = some c → k.length = 1) :
    ∃ es s', serializeData r = .ok es ∧
      parseData db force { lgr := { refs := m, raiseInvalid := strict } } es = (s', .ok ()) ∧
      dget s'.checks "char_ascending_order" = some true ∧
      dget s'.checks "char_strict_ascending_order" = some true := by
  obtain ⟨es, s', h1, h2, h3, -, -, h4⟩ := order_checks hwf hi h
  refine ⟨es, s', h1, h2, ?_, h3⟩
  rw [h4, decide_eq_true]
  refine ((iter_before hwf hi).sublist (singles_sublist _)).imp_of_mem ?_
  intro a b ha hb hab
  have one : ∀ k ∈ singles r.iter, ∃ x, k = [x] := by
    intro k hk
    obtain ⟨c, hc, rfl⟩ := List.mem_map.1 ((singles_sublist _).subset hk)
    exact List.length_eq_one_iff.1 (hl _ c ((mem_iter_intact hwf hi c).1 hc).1)
  obtain ⟨x, rfl⟩ := one a ha
  obtain ⟨y, rfl⟩ := one b hb
  obtain ⟨hne, h | h⟩ := hab
  · exact List.cons_lt_cons_iff.2 (.inl h)
  · exact absurd (by simpa using h.1) hne

end

/-- Three characters and a range: the conditions of the partial claim. -/
def sampleOps : List (Ctx × LGR.Op) :=
  [(ctx0, .addCp (.seq [120]) {}), (ctx0, .addRange 97 99 { tag := ["t"] }), (ctx0, .addCp (.seq [45]) {}),
   (ctx0, .addVariant (.seq [45]) (.seq [95, 95]) none {})]

example : WF (LGR.run {} sampleOps).rep ∧ Intact (LGR.run {} sampleOps).rep ∧
    (∀ k c, (LGR.run {} sampleOps).rep.lookup k = some c → Readable none true false {} c) ∧
    ∀ k c, (LGR.run {} sampleOps).rep.lookup k = some c → k.length = 1 := by
  refine ⟨(run_wf _).1, C06.intact_history _ ?_, fun k c hc => readable_of ?_, fun k c hc => ?_⟩
  · exact ⟨trivial, .inl (by decide +kernel), trivial, trivial, trivial⟩
  · have : ∀ c ∈ (LGR.run {} sampleOps).rep.allChars, readable {} c = true := by decide +kernel
    exact this c ((mem_allChars (run_wf _).1 c).2 (lookup_cp hc ▸ hc))
  · have : ∀ c ∈ (LGR.run {} sampleOps).rep.allChars, c.cp.length = 1 := by decide +kernel
    rw [← lookup_cp hc]
    exact this c ((mem_allChars (run_wf _).1 c).2 (lookup_cp hc ▸ hc))

/-- Two LGRs with sequences: `a c` added before `a b`; and `a b c` with `a d`. -/
def bad1 : List (Ctx × LGR.Op) := [(ctx0, .addCp (.seq [97, 99]) {}), (ctx0, .addCp (.seq [97, 98]) {})]
/-- See `bad1`. -/
def bad2 : List (Ctx × LGR.Op) := [(ctx0, .addCp (.seq [97, 98, 99]) {}), (ctx0, .addCp (.seq [97, 100]) {})]

/-- **C93, violated** The iteration sorts sequences with the same first code point by length alone, so the
document of an LGR with the sequences `a c` and `a b` (added in this order), or with `a b c` and `a d`
(added in any order), fails the parser's own check of ascending order. -/
theorem sequences_out_of_order : ∀ ops ∈ [bad1, bad2, bad2.reverse], ∃ es s',
    serializeData (LGR.run {} ops).rep = .ok es ∧ parseData none false { lgr := {} } es = (s', .ok ()) ∧
    dget s'.checks "char_ascending_order" = some false := by
  intro ops hops
  refine ⟨((LGR.run {} ops).rep.iter).map charElem,
    (parseData none false { lgr := {} } (((LGR.run {} ops).rep.iter).map charElem)).1, ?_, ?_, ?_⟩
  all_goals
    simp only [List.mem_cons, List.not_mem_nil, or_false] at hops
    rcases hops with rfl | rfl | rfl
  iterate 3 rfl
  iterate 3 exact Prod.ext rfl (by decide +kernel)
  iterate 3 decide +kernel

end Lgr.Props.C93
