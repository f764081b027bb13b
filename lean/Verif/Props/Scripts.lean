import Verif.Scripts
import Verif.Checks

/-!
# C128: whether code points are in the scripts of an LGR
-/

namespace Lgr.Props.C128
open Lgr Scripts

/-! ## Scripts of languages -/

/-- The script of a tag: its script subtag, else the one in which its language is usually written. -/
def ScriptOf (t : Tag) (s : String) : Prop := s ≠ "" ∧ (t.script = some s ∨ (t.script = none ∧ t.suppress = some s))

theorem tagScripts_iff {t : Tag} {u : String} : u ∈ tagScripts t ↔ ∃ s, ScriptOf t s ∧ u ∈ isoToUnicode s := by
  unfold tagScripts ScriptOf
  cases h : t.script with
  | some s =>
    simp only
    by_cases h0 : s = ""
    · simp [h0]
    · simp [h0]
  | none =>
    simp only
    cases h1 : t.suppress with
    | none => simp
    | some s =>
      simp only
      by_cases h0 : s = ""
      · simp [h0]
      · simp [h0]

/-- **C128** The scripts of an LGR are those which stand for the script of one of its valid languages. -/
theorem scripts_iff (tag : String → Tag) (allowInvalid : Bool) (languages : List String) (u : String) :
    u ∈ getScripts tag allowInvalid languages ↔
      ∃ l ∈ languages, ((tag l).valid = true ∨ allowInvalid = true) ∧ ∃ s, ScriptOf (tag l) s ∧ u ∈ isoToUnicode s := by
  unfold getScripts
  rw [List.mem_flatMap]
  refine exists_congr fun l => and_congr_right fun _ => ?_
  by_cases h : (allowInvalid || (tag l).valid) = true
  · rw [if_pos h, tagScripts_iff]
    rw [Bool.or_eq_true] at h
    exact ⟨fun h' => ⟨h.symm, h'⟩, fun h' => h'.2⟩
  · rw [if_neg h]
    rw [Bool.or_eq_true] at h
    exact ⟨fun h' => (by cases h'), fun h' => absurd h'.1.symm h⟩

/-- The codes of ISO 15924 for several scripts or for a part or a variant of a script, with the scripts of Unicode in
which their text is (https://www.unicode.org/iso15924, Unicode Standard Annex 24 table 3). -/
def composite : List (String × List String) :=
  [("Aran", ["Arab"]), ("Geok", ["Geor"]), ("Hanb", ["Hani", "Bopo"]), ("Hans", ["Hani"]), ("Hant", ["Hani"]),
   ("Hrkt", ["Hira", "Kana"]), ("Jamo", ["Hang"]), ("Jpan", ["Hani", "Hira", "Kana"]), ("Kore", ["Hang", "Hani"]),
   ("Latf", ["Latn"]), ("Latg", ["Latn"]), ("Syre", ["Syrc"]), ("Syrj", ["Syrc"]), ("Syrn", ["Syrc"])]

/-- The scripts of Unicode a code stands for. -/
def StandsFor (s u : String) : Prop :=
  (∃ us, (s, us) ∈ composite ∧ u ∈ us) ∨ (s ∉ composite.map Prod.fst ∧ u = s)

/-- **C128** (partial) All codes but `Hanb` and `Jamo` are converted to the scripts they stand for. -/
theorem iso_partial (s u : String) (h1 : s ≠ "Hanb") (h2 : s ≠ "Jamo") : u ∈ isoToUnicode s ↔ StandsFor s u := by
  have key : ∀ p ∈ composite, p.1 ≠ "Hanb" → p.1 ≠ "Jamo" →
      isoToUnicode p.1 ⊆ p.2 ∧ p.2 ⊆ isoToUnicode p.1 := by decide +kernel
  have uniq : ∀ p ∈ composite, ∀ q ∈ composite, p.1 = q.1 → p = q := by decide +kernel
  by_cases h : s ∈ composite.map Prod.fst
  · obtain ⟨p, hp, rfl⟩ := List.mem_map.1 h
    obtain ⟨k1, k2⟩ := key p hp h1 h2
    constructor
    · exact fun hu => .inl ⟨p.2, hp, k1 hu⟩
    · rintro (⟨us, hq, hu⟩ | ⟨hn, -⟩)
      · have := uniq p hp _ hq rfl
        rw [this] at k2
        exact k2 (by rw [this] at *; exact hu)
      · exact absurd h hn
  · have e : isoToUnicode s = [s] := by
      simp only [composite, List.map_cons, List.map_nil, List.mem_cons, List.not_mem_nil, or_false, not_or] at h
      obtain ⟨a1, a2, a3, a4, a5, a6, a7, a8, a9, a10, a11, a12, a13, a14⟩ := h
      simp [isoToUnicode, a1, a2, a4, a5, a6, a8, a9, a10, a11, a12, a13, a14]
    rw [e, List.mem_singleton]
    constructor
    · rintro rfl; exact .inr ⟨h, rfl⟩
    · rintro (⟨us, hq, -⟩ | ⟨-, hu⟩)
      · exact absurd (List.mem_map.2 ⟨_, hq, rfl⟩) h
      · exact hu

/-- **C128** (violated) `Hanb` and `Jamo` are not converted: no code point has them as script. -/
theorem iso_wrong : isoToUnicode "Hanb" = ["Hanb"] ∧ ¬ StandsFor "Hanb" "Hanb" ∧ StandsFor "Hanb" "Hani" ∧
    StandsFor "Hanb" "Bopo" ∧ isoToUnicode "Jamo" = ["Jamo"] ∧ ¬ StandsFor "Jamo" "Jamo" ∧ StandsFor "Jamo" "Hang" := by
  have no : ∀ p ∈ composite, p.1 ∉ p.2 := by decide +kernel
  have n : ∀ s ∈ composite.map Prod.fst, ¬ StandsFor s s := by
    rintro s h (⟨us, h1, h2⟩ | ⟨h1, -⟩)
    · exact no _ h1 h2
    · exact h1 h
  exact ⟨by decide +kernel, n _ (by decide +kernel), .inl ⟨["Hani", "Bopo"], by decide +kernel, by decide +kernel⟩,
    .inl ⟨["Hani", "Bopo"], by decide +kernel, by decide +kernel⟩, by decide +kernel, n _ (by decide +kernel),
    .inl ⟨["Hang"], by decide +kernel, by decide +kernel⟩⟩

/-! ## Code points -/

/-- A code point is in the scripts: they are not known, or its script is one of them, common or inherited. -/
def In (scripts : List String) (script : Nat → Option String) (x : Nat) : Prop :=
  scripts = [] ∨ ∀ s, script x = some s → s ∈ scripts ∨ s = "Zyyy" ∨ s = "Zinh"

theorem ok_iff {scripts : List String} {s : String} :
    scriptOk scripts s = true ↔ scripts = [] ∨ s ∈ scripts ∨ s = "Zyyy" ∨ s = "Zinh" := by
  unfold scriptOk
  cases scripts with
  | nil => simp
  | cons a l =>
    simp only [Bool.not_eq_true', Bool.and_eq_false_iff, decide_eq_false_iff_not]
    simp
    tauto

theorem step_spec (scripts : List String) (script : Nat → Option String) : ∀ (s : Seq) (r : Bool × List String),
    ((s.foldl (scriptStep scripts script) r).1 = true ↔ r.1 = true ∧ ∀ x ∈ s, In scripts script x) ∧
      (∀ u, u ∈ (s.foldl (scriptStep scripts script) r).2 ↔ u ∈ r.2 ∨ ∃ x ∈ s, script x = some u) ∧
      (r.2.Nodup → (s.foldl (scriptStep scripts script) r).2.Nodup)
  | [], r => by simp
  | x :: s, r => by
    obtain ⟨h1, h2, h3⟩ := step_spec scripts script s (scriptStep scripts script r x)
    rw [List.foldl_cons]
    refine ⟨h1.trans ?_, fun u => (h2 u).trans ?_, fun hn => h3 ?_⟩
    · rw [List.forall_mem_cons, ← and_assoc]
      refine and_congr_left fun _ => ?_
      unfold scriptStep In
      cases hx : script x with
      | none => simp
      | some t =>
        simp only [Option.some.injEq, forall_eq']
        rw [← ok_iff]
        split <;> simp_all
    · unfold scriptStep
      cases hx : script x with
      | none => simp [hx]
      | some t =>
        simp only [List.exists_mem_cons_iff, hx, Option.some.injEq]
        split
        · rename_i hm
          constructor
          · tauto
          · rintro (h | rfl | h)
            · exact .inl h
            · exact .inl hm
            · exact .inr h
        · rw [List.mem_append, List.mem_singleton]
          constructor
          · rintro ((h | rfl) | h)
            · exact .inl h
            · exact .inr (.inl rfl)
            · exact .inr (.inr h)
          · rintro (h | rfl | h)
            · exact .inl (.inl h)
            · exact .inl (.inr rfl)
            · exact .inr h
    · unfold scriptStep
      cases script x with
      | none => exact hn
      | some t =>
        simp only
        split
        · exact hn
        · rename_i hm
          exact List.nodup_append.2 ⟨hn, by simp, by
            intro a ha b hb e
            cases List.mem_singleton.1 hb
            exact hm (e ▸ ha)⟩

/-- **C128** `cp_in_script` says whether all code points are in the scripts of the LGR, and which scripts they have. -/
theorem in_script_exact (scripts : List String) (script : Nat → Option String) (s : Seq) :
    ((cpInScript scripts script s).1 = true ↔ ∀ x ∈ s, In scripts script x) ∧
      (∀ u, u ∈ (cpInScript scripts script s).2 ↔ ∃ x ∈ s, script x = some u) ∧
      (cpInScript scripts script s).2.Nodup := by
  obtain ⟨h1, h2, h3⟩ := step_spec scripts script s (true, [])
  exact ⟨h1.trans (by simp), fun u => (h2 u).trans (by simp), h3 .nil⟩

/-- The check of whole LGRs (C73) asks about code points in this way. -/
theorem in_checks (scripts : List String) (script : Nat → Option String) (s : Seq) :
    Checks.cpInScript (some (fun x => (cpInScript scripts script [x]).1)) s = .ok (cpInScript scripts script s).1 := by
  unfold Checks.cpInScript
  simp only [Except.ok.injEq]
  rw [Bool.eq_iff_iff, List.all_eq_true, (in_script_exact scripts script s).1]
  refine forall_congr' fun x => forall_congr' fun _ => ?_
  rw [(in_script_exact scripts script [x]).1]
  simp

/-- **C128** (violated) In an LGR with a Unicode database, `_check_convert_cp` with `assert_in_script` accepts nothing: it
raises `CharNotInScript` for code points which are in the scripts of the LGR as well. -/
theorem assert_wrong (valid : Nat → Bool) (raiseInvalid : Bool) (arg : CpArg) :
    ∃ e, checkConvertIn (some valid) raiseInvalid true arg = .error e := by
  unfold checkConvertIn
  cases LGR.checkConvert (some valid) raiseInvalid arg with
  | error e => exact ⟨e, rfl⟩
  | ok s => exact ⟨.charNotInScript s, rfl⟩

/-- **C128** (partial) Without `assert_in_script` or without Unicode database, it is as in C50. -/
theorem assert_partial (db : UniDb) (raiseInvalid assertIn : Bool) (arg : CpArg) (h : db = none ∨ assertIn = false) :
    checkConvertIn db raiseInvalid assertIn arg = LGR.checkConvert db raiseInvalid arg := by
  unfold checkConvertIn
  cases LGR.checkConvert db raiseInvalid arg with
  | error e => rfl
  | ok s => rcases h with rfl | rfl <;> simp

/-! ## Examples -/

/-- An LGR for Korean. -/
def tag0 (l : String) : Tag := if l = "ko" then ⟨true, none, some "Kore"⟩ else ⟨false, some "Latn", none⟩

def script0 (x : Nat) : Option String := if x = 0xAC00 then some "Hang" else if x = 0x2D then some "Zyyy" else some "Latn"

example : getScripts tag0 false ["ko", "xx"] = ["Hani", "Hang"] ∧ getScripts tag0 true ["ko", "xx"] = ["Hani", "Hang", "Latn"] ∧
    cpInScript ["Hani", "Hang"] script0 [0xAC00, 0x2D] = (true, ["Hang", "Zyyy"]) ∧
    cpInScript ["Hani", "Hang"] script0 [0xAC00, 0x61, 0xAC00] = (false, ["Hang", "Latn"]) ∧
    checkConvertIn (some (fun _ => true)) true true (.int 0xAC00) = .error (.charNotInScript [0xAC00]) := by decide +kernel

end Lgr.Props.C128
