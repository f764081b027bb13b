import Verif.MergeXml
import Verif.Props.Metadata

/-!
# C119: metadata of the merged LGR
-/

namespace Lgr.Props.C119
open Lgr Metadata MergeXml C61 C59

/-- The list has the members of the other one, each once, in the order in which they first occur. -/
def FirstOnce {α : Type} [DecidableEq α] (cat res : List α) : Prop :=
  res.Nodup ∧ (∀ x, x ∈ res ↔ x ∈ cat) ∧ ∀ x ∈ res, ∀ y ∈ res, res.idxOf x < res.idxOf y ↔ cat.idxOf x < cat.idxOf y

theorem firstOnce_snoc {α : Type} [DecidableEq α] {cat res : List α} (h : FirstOnce cat res) (x : α) :
    FirstOnce (cat ++ [x]) (if x ∈ res then res else res ++ [x]) := by
  obtain ⟨h1, h2, h3⟩ := h
  by_cases hx : x ∈ res
  · rw [if_pos hx]
    refine ⟨h1, fun y => ?_, fun a ha b hb => ?_⟩
    · rw [List.mem_append, List.mem_singleton, h2]
      refine ⟨.inl, fun h => ?_⟩
      rcases h with h | rfl
      · exact h
      · exact (h2 _).1 hx
    · rw [List.idxOf_append_of_mem ((h2 a).1 ha), List.idxOf_append_of_mem ((h2 b).1 hb)]
      exact h3 a ha b hb
  · rw [if_neg hx]
    have hc : x ∉ cat := fun h => hx ((h2 x).2 h)
    refine ⟨?_, fun y => by rw [List.mem_append, List.mem_append, h2], fun a ha b hb => ?_⟩
    · rw [List.nodup_append]
      refine ⟨h1, List.nodup_singleton _, fun a ha b hb => ?_⟩
      rw [List.mem_singleton] at hb
      subst hb
      intro e
      subst e
      exact hx ha
    · rw [List.mem_append, List.mem_singleton] at ha hb
      rcases ha with ha | rfl
      · have ha' := (h2 a).1 ha
        have la := List.idxOf_lt_length_iff.2 ha
        have la' := List.idxOf_lt_length_iff.2 ha'
        rw [List.idxOf_append_of_mem ha, List.idxOf_append_of_mem ha']
        rcases hb with hb | rfl
        · rw [List.idxOf_append_of_mem hb, List.idxOf_append_of_mem ((h2 b).1 hb)]
          exact h3 a ha b hb
        · rw [List.idxOf_append_of_notMem hx, List.idxOf_append_of_notMem hc]
          constructor <;> intro <;> omega
      · rw [List.idxOf_append_of_notMem hx, List.idxOf_append_of_notMem hc]
        rcases hb with hb | rfl
        · have hb' := (h2 b).1 hb
          have lb := List.idxOf_lt_length_iff.2 hb
          have lb' := List.idxOf_lt_length_iff.2 hb'
          rw [List.idxOf_append_of_mem hb, List.idxOf_append_of_mem hb']
          constructor <;> intro <;> omega
        · rw [List.idxOf_append_of_notMem hx, List.idxOf_append_of_notMem hc]
          simp

theorem firstOnce_union {α : Type} [DecidableEq α] : ∀ (l cat res : List α), FirstOnce cat res →
    FirstOnce (cat ++ l) (ordUnion res l) := by
  intro l
  induction l with
  | nil => intro cat res h; rw [List.append_nil]; exact h
  | cons x l ih =>
    intro cat res h
    have := ih (cat ++ [x]) _ (firstOnce_snoc h x)
    rw [List.append_assoc] at this
    exact this

theorem firstOnce_nil {α : Type} [DecidableEq α] : FirstOnce ([] : List α) [] :=
  ⟨List.nodup_nil, fun _ => Iff.rfl, fun _ h => absurd h List.not_mem_nil⟩

theorem firstOnce_fold {α β : Type} [DecidableEq α] (f : β → List α) : ∀ (l : List β) (cat res : List α), FirstOnce cat res →
    FirstOnce (cat ++ l.flatMap f) (l.foldl (fun r m => ordUnion r (f m)) res) := by
  intro l
  induction l with
  | nil => intro cat res h; simpa using h
  | cons m l ih =>
    intro cat res h
    have := ih _ _ (firstOnce_union (f m) cat res h)
    rw [List.append_assoc] at this
    exact this

/-! ## Each part of the metadata -/

theorem step_scopes : ∀ (l : List Metadata) (o : Metadata),
    (l.foldl metaStep o).scopes = l.foldl (fun r m => ordUnion r m.scopes) o.scopes := by
  intro l
  induction l with
  | nil => intro o; rfl
  | cons m l ih => intro o; exact ih _

theorem step_languages : ∀ (l : List Metadata) (o : Metadata),
    (l.foldl metaStep o).languages = l.foldl (fun r m => ordUnion r m.languages) o.languages := by
  intro l
  induction l with
  | nil => intro o; rfl
  | cons m l ih => intro o; exact ih _

theorem step_version : ∀ (l : List Metadata) (o : Metadata), (l.foldl metaStep o).version = o.version := by
  intro l
  induction l with
  | nil => intro o; rfl
  | cons m l ih => intro o; exact ih _

theorem step_description : ∀ (l : List Metadata) (o : Metadata), (l.foldl metaStep o).description = o.description := by
  intro l
  induction l with
  | nil => intro o; rfl
  | cons m l ih => intro o; exact ih _

/-- **C119**: languages and scopes are those of the LGRs, each once, in order; the date is the date of today. -/
theorem merged_lists (today : List Char) (l : List Metadata) :
    FirstOnce (l.flatMap (·.languages)) (mergeMetadata today l).languages ∧
    FirstOnce (l.flatMap (·.scopes)) (mergeMetadata today l).scopes ∧ (mergeMetadata today l).date = some today := by
  refine ⟨?_, ?_, rfl⟩
  · show FirstOnce _ (l.foldl metaStep _).languages
    rw [step_languages]
    exact firstOnce_fold (·.languages) l [] [] firstOnce_nil
  · show FirstOnce _ (l.foldl metaStep _).scopes
    rw [step_scopes]
    exact firstOnce_fold (·.scopes) l [] [] firstOnce_nil

theorem period_step (o m : Metadata) (ho : Dated o) (hm : Dated m) : Dated (metaStep o m) ∧
    ∀ t : Nat × Nat × Nat, IsDate t.1 t.2.1 t.2.2 → (Covers (metaStep o m) t ↔ Covers o t ∧ Covers m t) := by
  have hd : Dated (metaStep o m) := ⟨compare_dated pyMax_or ho.1 hm.1, compare_dated pyMin_or ho.2 hm.2⟩
  refine ⟨hd, fun t ht => ?_⟩
  have := inPeriod_iff _ hd t ht
  have e1 := inPeriod_iff o ho t ht
  have e2 := inPeriod_iff m hm t ht
  unfold Covers
  rw [← this, ← e1, ← e2]
  unfold InPeriod
  have s := start_spec o.validityStart m.validityStart t ht ho.1 hm.1
  have e := end_spec o.validityEnd m.validityEnd t ht ho.2 hm.2
  show (∀ s, compareObjects pyMax _ _ = some s → _) ∧ (∀ s, compareObjects pyMin _ _ = some s → _) ↔ _
  rw [s, e]
  tauto

theorem period_fold : ∀ (l : List Metadata) (o : Metadata), Dated o → (∀ m ∈ l, Dated m) → Dated (l.foldl metaStep o) ∧
    ∀ t : Nat × Nat × Nat, IsDate t.1 t.2.1 t.2.2 → (Covers (l.foldl metaStep o) t ↔ Covers o t ∧ ∀ m ∈ l, Covers m t) := by
  intro l
  induction l with
  | nil => intro o ho _; exact ⟨ho, fun t _ => by simp⟩
  | cons m l ih =>
    intro o ho h
    obtain ⟨h1, h2⟩ := period_step o m ho (h m (by simp))
    obtain ⟨h3, h4⟩ := ih _ h1 (fun x hx => h x (by simp [hx]))
    refine ⟨h3, fun t ht => ?_⟩
    show Covers (l.foldl metaStep (metaStep o m)) t ↔ _
    rw [h4 t ht, h2 t ht, List.forall_mem_cons]
    tauto

/-- **C119**: the merged LGR is valid on the days on which all LGRs are. -/
theorem merged_period (today : List Char) (l : List Metadata) (h : ∀ m ∈ l, Dated m) : Dated (mergeMetadata today l) ∧
    ∀ t : Nat × Nat × Nat, IsDate t.1 t.2.1 t.2.2 → (Covers (mergeMetadata today l) t ↔ ∀ m ∈ l, Covers m t) := by
  obtain ⟨h1, h2⟩ := period_fold l
    ({ version := some (mergeVersions l), description := some (mergeDescriptions l) } : Metadata)
    ⟨fun s e => by simp at e, fun s e => by simp at e⟩ h
  refine ⟨h1, fun t ht => ?_⟩
  show Covers (l.foldl metaStep _) t ↔ _
  rw [h2 t ht]
  exact ⟨fun h => h.2, fun h => ⟨⟨fun u _ e => by simp at e, fun u _ e => by simp at e⟩, h⟩⟩

/-- The text, unless there is none or it is empty. -/
def some1 : Option String → List String
  | none => []
  | some s => if s = "" then [] else [s]

/-- What is said by a version. -/
def said1 (f : Version → Option String) (m : Metadata) : List String :=
  match m.version with
  | none => []
  | some v => some1 (f v)

/-- The values and comments that there are. -/
def said (f : Version → Option String) (l : List Metadata) : List String := l.flatMap (said1 f)

theorem firstOnce_some1 {a ra : List String} (h : FirstOnce a ra) (s : String) :
    FirstOnce (a ++ some1 (some s)) (if s = "" then ra else ordUnion ra [s]) := by
  unfold some1
  dsimp only
  split
  · rw [List.append_nil]; exact h
  · exact firstOnce_union _ _ _ h

theorem version_step (m : Metadata) {a b : List String} {r : List String × List String} (h1 : FirstOnce a r.1)
    (h2 : FirstOnce b r.2) : FirstOnce (a ++ said1 (fun v => some v.value) m) (versionStep r m.version).1 ∧
      FirstOnce (b ++ said1 (·.comment) m) (versionStep r m.version).2 := by
  unfold said1 versionStep
  cases m.version with
  | none => simpa using ⟨h1, h2⟩
  | some v =>
    refine ⟨firstOnce_some1 h1 v.value, ?_⟩
    dsimp only
    cases v.comment with
    | none => simpa [some1] using h2
    | some c => exact firstOnce_some1 h2 c

theorem version_fold : ∀ (l : List Metadata) (a b : List String) (r : List String × List String), FirstOnce a r.1 → FirstOnce b r.2 →
    FirstOnce (a ++ said (fun v => some v.value) l) ((l.map (·.version)).foldl versionStep r).1 ∧
    FirstOnce (b ++ said (·.comment) l) ((l.map (·.version)).foldl versionStep r).2 := by
  intro l
  induction l with
  | nil => intro a b r h1 h2; simpa [said] using ⟨h1, h2⟩
  | cons m l ih =>
    intro a b r h1 h2
    obtain ⟨g1, g2⟩ := version_step m h1 h2
    have := ih _ _ _ g1 g2
    rw [List.append_assoc, List.append_assoc] at this
    exact this

/-- **C119**: the version lists the versions of the LGRs, each once, in order, and so the comment. -/
theorem merged_version (today : List Char) (l : List Metadata) : ∃ vs cs,
    FirstOnce (said (fun v => some v.value) l) vs ∧ FirstOnce (said (·.comment) l) cs ∧
    (mergeMetadata today l).version = some ⟨"|".intercalate vs, some ("|".intercalate cs)⟩ := by
  obtain ⟨h1, h2⟩ := version_fold l [] [] ([], []) firstOnce_nil firstOnce_nil
  refine ⟨_, _, h1, h2, ?_⟩
  show (l.foldl metaStep _).version = _
  rw [step_version]
  rfl

theorem infix_join (sep : String) : ∀ (l : List String) (x : String), x ∈ l → x.toList <:+: (sep.intercalate l).toList := by
  intro l
  induction l with
  | nil => intro x h; simp at h
  | cons y l ih =>
    intro x h
    cases l with
    | nil =>
      simp at h
      subst h
      rw [String.intercalate_singleton]
    | cons z l =>
      rw [String.intercalate_cons_cons]
      simp only [String.toList_append]
      rcases List.mem_cons.1 h with rfl | h
      · exact (List.prefix_append _ _).isInfix.trans (by rw [List.append_assoc])
      · exact (ih x h).trans (List.suffix_append _ _).isInfix

/-- The first language of an LGR, if any. -/
def firstLanguage (m : Metadata) : String := match m.languages with | [] => "" | s :: _ => s

theorem scriptOf_eq (m : Metadata) : scriptOf m = firstLanguage m := by
  unfold scriptOf firstLanguage
  cases m.languages <;> rfl

theorem mem_descriptions {l : List Metadata} {s : String} {d : Description} :
    (s, d) ∈ descriptions l ↔ ∃ m ∈ l, m.description = some d ∧ s = scriptOf m := by
  unfold descriptions
  rw [List.mem_filterMap]
  constructor
  · rintro ⟨m, hm, h⟩
    cases hd : m.description with
    | none => rw [hd] at h; simp at h
    | some d' =>
      rw [hd] at h
      simp at h
      exact ⟨m, hm, by rw [hd, h.2], h.1.symm⟩
  · rintro ⟨m, hm, h, rfl⟩
    exact ⟨m, hm, by rw [h]; rfl⟩

theorem not_all {l : List Metadata} {m : Metadata} (hm : m ∈ l) {d : Description} (hd : m.description = some d)
    (ht : d.type ≠ some "text/html") : ¬ (descriptions l).all (fun p => decide (p.2.type = some "text/html")) = true := by
  intro h
  rw [List.all_eq_true] at h
  exact ht (of_decide_eq_true (h (scriptOf m, d) (mem_descriptions.2 ⟨m, hm, hd, rfl⟩)))

theorem join_eq (l : List String) : String.join l = "".intercalate l := by
  apply String.toList_inj.1
  rw [String.toList_join]
  induction l with
  | nil => rfl
  | cons x l ih =>
    cases l with
    | nil => rw [String.intercalate_singleton]; simp
    | cons y l =>
      rw [String.intercalate_cons_cons, List.flatMap_cons, ih]
      simp

/-- **C119**: the description contains the texts of all descriptions; it is HTML if they all are, and then nothing is
added, and otherwise each text is preceded by script and type. -/
theorem merged_description (today : List Char) (l : List Metadata) : ∃ D, (mergeMetadata today l).description = some D ∧
    ((∀ m ∈ l, ∀ d, m.description = some d → d.type = some "text/html") →
      D.type = some "text/html" ∧ D.value = String.join (l.filterMap (fun m => m.description.map (·.value)))) ∧
    ((∃ m ∈ l, ∃ d, m.description = some d ∧ d.type ≠ some "text/html") → D.type = some "text/plain") ∧
    (∀ m ∈ l, ∀ d, m.description = some d → d.value.toList <:+: D.value.toList) ∧
    ∀ m ∈ l, ∀ d, m.description = some d → D.type = some "text/plain" → ∀ t, d.type = some t →
      ("\nScript: '" ++ firstLanguage m ++ "' - MIME-type: '" ++ t ++ "':\n" ++ d.value).toList <:+: D.value.toList := by
  refine ⟨mergeDescriptions l, ?_, ?_, ?_, ?_, ?_⟩
  · show (l.foldl metaStep _).description = _
    rw [step_description]
  · intro h
    have hall : (descriptions l).all (fun p => decide (p.2.type = some "text/html")) = true := by
      rw [List.all_eq_true]
      rintro ⟨s, d⟩ hp
      obtain ⟨m, hm, hd, -⟩ := mem_descriptions.1 hp
      exact decide_eq_true (h m hm d hd)
    unfold mergeDescriptions
    dsimp only
    rw [if_pos hall]
    refine ⟨rfl, ?_⟩
    dsimp only
    rw [join_eq]
    congr 1
    unfold descriptions
    rw [List.map_filterMap]
    congr 1
    funext m
    cases m.description <;> rfl
  · rintro ⟨m, hm, d, hd, ht⟩
    have := not_all hm hd ht
    unfold mergeDescriptions
    dsimp only
    rw [if_neg this]
  · intro m hm d hd
    have hp := mem_descriptions.2 ⟨m, hm, hd, rfl⟩
    unfold mergeDescriptions
    dsimp only
    split
    · exact infix_join _ _ _ (List.mem_map.2 ⟨_, hp, rfl⟩)
    · refine List.IsInfix.trans ?_ (infix_join _ _ _ (List.mem_map.2 ⟨_, hp, rfl⟩))
      unfold describe
      simp only [String.toList_append]
      exact ⟨_, _, rfl⟩
  · intro m hm d hd hD t ht
    have hp := mem_descriptions.2 ⟨m, hm, hd, rfl⟩
    unfold mergeDescriptions at hD ⊢
    dsimp only at hD ⊢
    split at hD
    · simp at hD
    · rename_i hn
      rw [if_neg hn]
      refine List.IsInfix.trans ?_ (infix_join _ _ _ (List.mem_map.2 ⟨_, hp, rfl⟩))
      unfold describe
      rw [ht, scriptOf_eq]
      simp only [String.toList_append, showOpt]
      exact (List.prefix_append _ _).isInfix

/-! ## The version of Unicode -/

theorem unicode_fold : ∀ (l : List Metadata) (o : Metadata),
    (l.foldl metaStep o).unicodeVersion = l.foldl (fun r m => compareObjects pyMax r m.unicodeVersion) o.unicodeVersion := by
  intro l
  induction l with
  | nil => intro o; rfl
  | cons m l ih => intro o; exact ih _

/-- Three digits with points between. -/
def three (t : Nat × Nat × Nat) : List Char :=
  [Char.ofNat (48 + t.1), '.', Char.ofNat (48 + t.2.1), '.', Char.ofNat (48 + t.2.2)]

def Digits (t : Nat × Nat × Nat) : Prop := t.1 < 10 ∧ t.2.1 < 10 ∧ t.2.2 < 10

theorem digit_lt : ∀ m < 10, ∀ n < 10, (Char.ofNat (48 + m) < Char.ofNat (48 + n) ↔ m < n) ∧
    (Char.ofNat (48 + m) = Char.ofNat (48 + n) ↔ m = n) := by decide

theorem three_lt {s t : Nat × Nat × Nat} (hs : Digits s) (ht : Digits t) : three s < three t ↔ Before s t := by
  unfold three Before
  simp only [List.cons_lt_cons_iff, List.lt_irrefl, and_false, or_false, true_and, digit_lt _ hs.1 _ ht.1,
    digit_lt _ hs.2.1 _ ht.2.1, digit_lt _ hs.2.2 _ ht.2.2]
  simp [Char.lt_irrefl]

/-- **C119**: as long as major versions have one digit, the version of Unicode is the highest of those of the LGRs and
of the default 6.3.0. Missing for the full property: versions from 10.0.0 on, see `unicode_wrong`. -/
theorem merged_unicode_partial (today : List Char) (l : List Metadata)
    (h : ∀ m ∈ l, ∀ u, m.unicodeVersion = some u → ∃ t, Digits t ∧ u = three t) :
    ∃ t, Digits t ∧ (mergeMetadata today l).unicodeVersion = some (three t) ∧
      (t = (6, 3, 0) ∨ ∃ m ∈ l, m.unicodeVersion = some (three t)) ∧
      ¬ Before t (6, 3, 0) ∧ ∀ m ∈ l, ∀ t', Digits t' → m.unicodeVersion = some (three t') → ¬ Before t t' := by
  have key : ∀ (l : List Metadata) (t0 : Nat × Nat × Nat), Digits t0 →
      (∀ m ∈ l, ∀ u, m.unicodeVersion = some u → ∃ t, Digits t ∧ u = three t) →
      ∃ t, Digits t ∧ l.foldl (fun r m => compareObjects pyMax r m.unicodeVersion) (some (three t0)) = some (three t) ∧
        (t = t0 ∨ ∃ m ∈ l, m.unicodeVersion = some (three t)) ∧
        ¬ Before t t0 ∧ ∀ m ∈ l, ∀ t', Digits t' → m.unicodeVersion = some (three t') → ¬ Before t t' := by
    intro l
    induction l with
    | nil => intro t0 h0 _; exact ⟨t0, h0, rfl, .inl rfl, by unfold Before; omega, fun m hm => absurd hm List.not_mem_nil⟩
    | cons m l ih =>
      intro t0 h0 h
      have hl := fun x hx => h x (List.mem_cons_of_mem _ hx)
      rw [List.foldl_cons]
      cases hu : m.unicodeVersion with
      | none =>
        obtain ⟨t, h1, h2, h3, h4, h5⟩ := ih t0 h0 hl
        refine ⟨t, h1, h2, h3.imp id (fun ⟨x, hx, e⟩ => ⟨x, List.mem_cons_of_mem _ hx, e⟩), h4, ?_⟩
        intro x hx t' ht' e
        rcases List.mem_cons.1 hx with rfl | hx
        · rw [hu] at e; simp at e
        · exact h5 x hx t' ht' e
      | some u =>
        obtain ⟨t1, ht1, rfl⟩ := h m (by simp) u hu
        have inj : ∀ t', Digits t' → three t1 = three t' → t1 = t' := by
          intro t' ht' e
          unfold three at e
          simp only [List.cons.injEq, digit_lt _ ht1.1 _ ht'.1, digit_lt _ ht1.2.1 _ ht'.2.1, digit_lt _ ht1.2.2 _ ht'.2.2] at e
          exact Prod.ext e.1 (Prod.ext e.2.2.1 e.2.2.2.2.1)
        show ∃ t, Digits t ∧ l.foldl _ (some (pyMax (three t0) (three t1))) = _ ∧ _
        unfold pyMax
        split
        · rename_i hlt
          rw [three_lt h0 ht1] at hlt
          obtain ⟨t, h1, h2, h3, h4, h5⟩ := ih t1 ht1 hl
          refine ⟨t, h1, h2, .inr ?_, by unfold Before at *; omega, ?_⟩
          · rcases h3 with rfl | ⟨x, hx, e⟩
            · exact ⟨m, by simp, hu⟩
            · exact ⟨x, List.mem_cons_of_mem _ hx, e⟩
          · intro x hx t' ht' e
            rcases List.mem_cons.1 hx with rfl | hx
            · rw [hu, Option.some.injEq] at e
              rw [← inj t' ht' e]
              exact h4
            · exact h5 x hx t' ht' e
        · rename_i hlt
          rw [three_lt h0 ht1] at hlt
          obtain ⟨t, h1, h2, h3, h4, h5⟩ := ih t0 h0 hl
          refine ⟨t, h1, h2, h3.imp id (fun ⟨x, hx, e⟩ => ⟨x, List.mem_cons_of_mem _ hx, e⟩), h4, ?_⟩
          intro x hx t' ht' e
          rcases List.mem_cons.1 hx with rfl | hx
          · rw [hu, Option.some.injEq] at e
            rw [← inj t' ht' e]
            unfold Before at *; omega
          · exact h5 x hx t' ht' e
  have : (mergeMetadata today l).unicodeVersion =
      l.foldl (fun r m => compareObjects pyMax r m.unicodeVersion) (some (three (6, 3, 0))) := by
    show (l.foldl metaStep _).unicodeVersion = _
    rw [unicode_fold]
    rfl
  rw [this]
  exact key l (6, 3, 0) ⟨by decide, by decide, by decide⟩ h

/-- **C119** is violated: LGRs of Unicode 10.0.0 and 11.0.0 are merged into one of Unicode 6.3.0. -/
theorem unicode_wrong (today : List Char) : (mergeMetadata today [{ unicodeVersion := some "10.0.0".toList },
    { unicodeVersion := some "11.0.0".toList }]).unicodeVersion = some "6.3.0".toList := by
  rw [show (mergeMetadata today [{ unicodeVersion := some "10.0.0".toList }, { unicodeVersion := some "11.0.0".toList }]).unicodeVersion =
    (mergeMetadata [] [{ unicodeVersion := some "10.0.0".toList }, { unicodeVersion := some "11.0.0".toList }]).unicodeVersion from rfl]
  decide +kernel

/-- **C119** is violated: LGRs without version and description are merged into one that has both, empty, the version
with an empty comment and the description of type HTML. -/
theorem empty_wrong (today : List Char) : (mergeMetadata today [{}, {}]).version = some ⟨"", some ""⟩ ∧
    (mergeMetadata today [{}, {}]).description = some ⟨"", some "text/html"⟩ := by
  constructor
  · rw [show (mergeMetadata today [{}, {}]).version = (mergeMetadata [] [{}, {}]).version from rfl]
    decide +kernel
  · rw [show (mergeMetadata today [{}, {}]).description = (mergeMetadata [] [{}, {}]).description from rfl]
    decide +kernel

/-! ## A case -/

def m1 : Metadata :=
  { version := some ⟨"1", some "a"⟩, languages := ["und-Latn", "en"], scopes := [⟨".", some "domain"⟩],
    validityStart := some (iso (2015, 12, 31)), validityEnd := some (iso (2025, 1, 1)), unicodeVersion := some "7.0.0".toList,
    description := some ⟨"x", some "text/plain"⟩ }

def m2 : Metadata :=
  { version := some ⟨"1", none⟩, languages := ["und-Cyrl", "en"], scopes := [⟨".", some "domain"⟩],
    validityStart := some (iso (2016, 1, 1)), unicodeVersion := some "6.3.0".toList, description := some ⟨"y", none⟩ }

example : (mergeMetadata [] [m1, m2]).languages = ["und-Latn", "en", "und-Cyrl"] ∧
    (mergeMetadata [] [m1, m2]).scopes = [⟨".", some "domain"⟩] ∧
    (mergeMetadata [] [m1, m2]).version = some ⟨"1", some "a"⟩ ∧
    (mergeMetadata [] [m1, m2]).validityStart = some "2016-01-01".toList ∧
    (mergeMetadata [] [m1, m2]).unicodeVersion = some "7.0.0".toList ∧
    (mergeMetadata [] [m1, m2]).description =
      some ⟨"\nScript: 'und-Latn' - MIME-type: 'text/plain':\nx\n----\n\nScript: 'und-Cyrl' - MIME-type: 'None':\ny\n",
        some "text/plain"⟩ := by decide +kernel

/-- The hypotheses of `merged_period` and `merged_unicode_partial` are met. -/
example : (∀ m ∈ [m1, m2], Dated m) ∧
    ∀ m ∈ [m1, m2], ∀ u, m.unicodeVersion = some u → ∃ t, Digits t ∧ u = three t := by
  constructor
  · intro m hm
    simp only [List.mem_cons, List.not_mem_nil, or_false] at hm
    rcases hm with rfl | rfl
    · refine ⟨fun s e => ⟨(2015, 12, 31), by unfold IsDate; decide, ?_⟩, fun s e => ⟨(2025, 1, 1), by unfold IsDate; decide, ?_⟩⟩ <;>
        simpa [m1] using e.symm
    · refine ⟨fun s e => ⟨(2016, 1, 1), by unfold IsDate; decide, ?_⟩, fun s e => ?_⟩
      · simpa [m2] using e.symm
      · simp [m2] at e
  · intro m hm u hu
    simp only [List.mem_cons, List.not_mem_nil, or_false] at hm
    rcases hm with rfl | rfl
    · refine ⟨(7, 0, 0), ⟨by decide, by decide, by decide⟩, ?_⟩
      rw [← Option.some_inj, ← hu]; decide +kernel
    · refine ⟨(6, 3, 0), ⟨by decide, by decide, by decide⟩, ?_⟩
      rw [← Option.some_inj, ← hu]; decide +kernel

end Lgr.Props.C119
