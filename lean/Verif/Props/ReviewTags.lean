import Verif.Props.ReviewRules

/-!
# C127: the report on language tags
-/

namespace Lgr.Props.C127
open Lgr Review

/-- The same language and the same script. -/
def Same (a b : TagInfo) : Prop := a.language = b.language ∧ a.script = b.script

/-- A language, which is also that of the reference. -/
def SameLanguage (a b : TagInfo) : Prop := a.language ≠ "" ∧ b.language = a.language

/-- The script in which the language is usually written is that of the reference. -/
def Relevant (a b : TagInfo) : Prop := ∃ s, s ≠ "" ∧ a.langScript = some s ∧ b.script = s

/-- What is said of a tag of the table (`none`: it has none) and a tag of the reference. -/
inductive Says (info : String → TagInfo) : Option String → String → Result → String → Prop where
  | absent (u : String) : Says info none u .manualCheck "Language tag may be included in the comment"
  | same {t u : String} (h : Same (info t) (info u)) : Says info (some t) u .matched "Exact match"
  | unknown {t u : String} (h : ¬ Same (info t) (info u)) (h1 : (info t).unknown = true) :
      Says info (some t) u .manualCheck "Language tag may be included in the comment"
  | minimize {t u : String} (h : ¬ Same (info t) (info u)) (h1 : (info t).unknown = false)
      (h2 : SameLanguage (info t) (info u)) (h3 : (info t).suppress = true) :
      Says info (some t) u .matched "Consider minimizing the tag as per the RFC5646 and IANA subtag registry"
  | language {t u : String} (h : ¬ Same (info t) (info u)) (h1 : (info t).unknown = false)
      (h2 : SameLanguage (info t) (info u)) (h3 : (info t).suppress = false) :
      Says info (some t) u .matched "Language match"
  | script {t u : String} (h : ¬ Same (info t) (info u)) (h1 : (info t).unknown = false)
      (h2 : ¬ SameLanguage (info t) (info u)) (h3 : Relevant (info t) (info u)) :
      Says info (some t) u .matched "The language tag in IDN Table relevant to the script tag in Reference LGR"
  | mismatch {t u : String} (h : ¬ Same (info t) (info u)) (h1 : (info t).unknown = false)
      (h2 : ¬ SameLanguage (info t) (info u)) (h3 : ¬ Relevant (info t) (info u)) :
      Says info (some t) u .review "The language tag in IDN Table and Reference LGR are mismatched"

theorem language_iff {a b : TagInfo} : (a.language ≠ "" ∧ a.language = b.language) ↔ SameLanguage a b :=
  ⟨fun h => ⟨h.1, h.2.symm⟩, fun h => ⟨h.1, h.2.symm⟩⟩

theorem relevant_iff {a b : TagInfo} : (b.script ≠ "" ∧ a.langScript = some b.script) ↔ Relevant a b :=
  ⟨fun h => ⟨_, h.1, h.2, rfl⟩, fun ⟨s, h1, h2, h3⟩ => ⟨h3 ▸ h1, h3 ▸ h2⟩⟩

theorem compare_iff {info : String → TagInfo} {t : Option String} {u : String} {r : Result} {m : String} :
    compareTag info t u = (r, m) ↔ Says info t u r m := by
  have fwd : Says info t u (compareTag info t u).1 (compareTag info t u).2 := by
    cases t with
    | none => exact .absent u
    | some t =>
      unfold compareTag
      simp only
      by_cases h : (info t).language = (info u).language ∧ (info t).script = (info u).script
      · rw [if_pos h]; exact .same h
      · rw [if_neg h]
        cases h1 : (info t).unknown with
        | true => rw [if_pos rfl]; exact .unknown h h1
        | false =>
          rw [if_neg (by simp)]
          by_cases h2 : (info t).language ≠ "" ∧ (info t).language = (info u).language
          · rw [if_pos h2]
            cases h3 : (info t).suppress with
            | true => rw [if_pos rfl]; exact .minimize h h1 (language_iff.1 h2) h3
            | false => rw [if_neg (by simp)]; exact .language h h1 (language_iff.1 h2) h3
          · rw [if_neg h2]
            by_cases h3 : (info u).script ≠ "" ∧ (info t).langScript = some (info u).script
            · rw [if_pos h3]; exact .script h h1 (fun e => h2 (language_iff.2 e)) (relevant_iff.1 h3)
            · rw [if_neg h3]
              exact .mismatch h h1 (fun e => h2 (language_iff.2 e)) (fun e => h3 (relevant_iff.2 e))
  have uniq : ∀ {r m r' m'}, Says info t u r m → Says info t u r' m' → (r, m) = (r', m') := by
    intro r m r' m' ha hb
    cases ha <;> cases hb <;> simp_all
  constructor
  · intro e; rw [e] at fwd; exact fwd
  · intro h; exact uniq fwd h

/-- **C127** Every tag of the table, or none if there is no tag, is compared with every tag of the reference, in
alphabetical order; and the result and the remark on two tags are exactly these. -/
theorem tags_exact (info : String → TagInfo) (idn ref : List String) :
    ((tagsReport info idn ref).map Prod.fst).Perm (if idn = [] then [none] else idn.map some) ∧
      (((tagsReport info idn ref).filterMap Prod.fst).Pairwise (· ≤ ·)) ∧
      ∀ e ∈ tagsReport info idn ref, (e.2.map (fun c => c.1)).Perm ref ∧ (e.2.map (fun c => c.1)).Pairwise (· ≤ ·) ∧
        ∀ c ∈ e.2, Says info e.1 c.1 c.2.1 c.2.2 := by
  have hl : (tagsReport info idn ref).map Prod.fst = if sortAsc id idn = [] then [none] else (sortAsc id idn).map some := by
    unfold tagsReport
    simp only [List.map_map]
    exact List.map_id _
  have hn : sortAsc id idn = [] ↔ idn = [] := by
    constructor
    · intro h
      have := sortAsc_perm id idn
      rw [h] at this
      exact this.nil_eq.symm
    · rintro rfl; rfl
  have hf : (tagsReport info idn ref).filterMap Prod.fst = sortAsc id idn := by
    have : (tagsReport info idn ref).filterMap Prod.fst = ((tagsReport info idn ref).map Prod.fst).filterMap id := by
      rw [List.filterMap_map]; rfl
    rw [this, hl]
    split
    · rename_i h; rw [h]; rfl
    · simp [List.filterMap_map]
  refine ⟨?_, ?_, ?_⟩
  · rw [hl]
    by_cases h : idn = []
    · rw [if_pos h, if_pos (hn.2 h)]
    · rw [if_neg h, if_neg (fun e => h (hn.1 e))]
      exact (sortAsc_perm id idn).map some
  · rw [hf]
    exact sortAsc_sorted id idn
  · intro e he
    unfold tagsReport at he
    obtain ⟨t, -, rfl⟩ := List.mem_map.1 he
    refine ⟨?_, ?_, ?_⟩
    · have := (sortAsc_perm (fun x : String × Result × String => x.1)
        (ref.map (fun u => (u, compareTag info t u)))).map (fun c => c.1)
      rw [List.map_map] at this
      have e : ((fun c : String × Result × String => c.1) ∘ fun u => (u, compareTag info t u)) = id := rfl
      rw [e, List.map_id] at this
      exact this
    · exact List.pairwise_map.2 (sortAsc_sorted (fun x : String × Result × String => x.1) _)
    · intro c hc
      rw [mem_sortAsc] at hc
      obtain ⟨u, -, rfl⟩ := List.mem_map.1 hc
      exact compare_iff.1 rfl

/-- **C127** Which tags match, are to be reviewed, or to be checked by hand. -/
theorem verdict (info : String → TagInfo) (idn ref : List String) (e : Option String × List (String × Result × String))
    (he : e ∈ tagsReport info idn ref) (c : String × Result × String) (hc : c ∈ e.2) :
    (c.2.1 = .matched ↔ ∃ t, e.1 = some t ∧ (Same (info t) (info c.1) ∨ ((info t).unknown = false ∧
      (SameLanguage (info t) (info c.1) ∨ Relevant (info t) (info c.1))))) ∧
    (c.2.1 = .manualCheck ↔ ∀ t, e.1 = some t → (info t).unknown = true ∧ ¬ Same (info t) (info c.1)) ∧
    (c.2.1 = .matched ∨ c.2.1 = .manualCheck ∨ c.2.1 = .review) := by
  have h := ((tags_exact info idn ref).2.2 e he).2.2 c hc
  obtain ⟨t, l⟩ := e
  obtain ⟨u, r, m⟩ := c
  simp only at h ⊢
  cases h <;> simp_all

/-- The tags of a table of Hindi and of one for an unknown language. -/
def info0 (t : String) : TagInfo :=
  if t = "hi" then ⟨"hi", "", false, false, some "Deva"⟩
  else if t = "hi-Deva" then ⟨"hi", "Deva", false, true, some "Deva"⟩
  else if t = "und-Deva" then ⟨"", "Deva", false, false, none⟩
  else ⟨t, "", true, false, none⟩

/-- Each case. -/
example : tagsReport info0 ["hi-Deva", "hi", "xx"] ["und-Deva", "mr", "hi"] =
    [(some "hi", [("hi", .matched, "Exact match"),
      ("mr", .review, "The language tag in IDN Table and Reference LGR are mismatched"),
      ("und-Deva", .matched, "The language tag in IDN Table relevant to the script tag in Reference LGR")]),
     (some "hi-Deva", [("hi", .matched, "Consider minimizing the tag as per the RFC5646 and IANA subtag registry"),
      ("mr", .review, "The language tag in IDN Table and Reference LGR are mismatched"),
      ("und-Deva", .matched, "The language tag in IDN Table relevant to the script tag in Reference LGR")]),
     (some "xx", [("hi", .manualCheck, "Language tag may be included in the comment"),
      ("mr", .manualCheck, "Language tag may be included in the comment"),
      ("und-Deva", .manualCheck, "Language tag may be included in the comment")])] := by decide +kernel

end Lgr.Props.C127
