import Verif.Basic
import Mathlib.Data.Nat.Digits.Defs

/-!
# Textual notation of numbers and code points

`lgr/utils.py` 43-70, `lgr/tools/utils.py` 74-159, `lgr/parser/xml_parser.py` 519-567.
Strings are lists of characters.
-/

namespace Lgr.Text

/-- Digits of a number, most significant first, at least one digit. -/
def digitsOf (b n : Nat) : List Nat := if n = 0 then [0] else (Nat.digits b n).reverse

/-- Value of a digit string. -/
def valueOf (b : Nat) (l : List Nat) : Nat := l.foldl (fun v d => v * b + d) 0

/-- Digits `0-9A-F`. -/
def digitChar (d : Nat) : Char :=
  ("0123456789ABCDEF".toList)[d]?.getD '?'

/-- Value of a hexadecimal digit, either case. -/
def hexVal (c : Char) : Option Nat :=
  if '0' ≤ c ∧ c ≤ '9' then some (c.toNat - 48)
  else if 'A' ≤ c ∧ c ≤ 'F' then some (c.toNat - 55)
  else if 'a' ≤ c ∧ c ≤ 'f' then some (c.toNat - 87)
  else none

/-- Python `"%X" % n`. -/
def hexStr (n : Nat) : List Char := (digitsOf 16 n).map digitChar

/-- `lgr/utils.py` 43-47: `"%04X" % cp`. -/
def cpToStr (n : Nat) : List Char := List.replicate (4 - (hexStr n).length) '0' ++ hexStr n

/-- Python `int(s, 16)` on strings of hexadecimal digits; `none` is `ValueError`.
Simplified: the additional forms accepted by Python (surrounding white space, sign, `0x`
prefix, underscores, non-ASCII digits) are rejected here. -/
def parseHex (s : List Char) : Option Nat :=
  match s with
  | [] => none
  | _ :: _ => (s.mapM hexVal).map (valueOf 16)

/-- Python `str(n)` for a natural number. -/
def decStr (n : Nat) : List Char := (digitsOf 10 n).map digitChar

/-- Python `str(n)` for an integer. -/
def intStr (n : Int) : List Char :=
  if n < 0 then '-' :: decStr n.natAbs else decStr n.natAbs

/-- White space as understood by `str.split()` and `str.strip()`. -/
def isSpace (c : Char) : Bool :=
  c.toNat ∈ [9, 10, 11, 12, 13, 28, 29, 30, 31, 32, 0x85, 0xA0, 0x1680, 0x2028, 0x2029, 0x202F,
    0x205F, 0x3000] || (0x2000 ≤ c.toNat && c.toNat ≤ 0x200A)

/-- `str.split()`: maximal runs of non-space characters. -/
def splitWs (s : List Char) : List (List Char) := go [] s
where
  /-- `cur` is the current run, reversed. -/
  go (cur : List Char) : List Char → List (List Char)
    | [] => if cur = [] then [] else [cur.reverse]
    | c :: s =>
      if isSpace c then (if cur = [] then go [] s else cur.reverse :: go [] s)
      else go (c :: cur) s

/-- `str.strip()`. -/
def strip (s : List Char) : List Char :=
  ((s.dropWhile isSpace).reverse.dropWhile isSpace).reverse

/-- `s.split(sep)` for a one-character separator. -/
def splitOn (sep : Char) (s : List Char) : List (List Char) := go [] s
where
  go (cur : List Char) : List Char → List (List Char)
    | [] => [cur.reverse]
    | c :: s => if c = sep then cur.reverse :: go [] s else go (c :: cur) s

/-- `sep.join(l)` for a one-character separator. -/
def join (sep : Char) : List (List Char) → List Char
  | [] => []
  | [x] => x
  | x :: y :: l => x ++ sep :: join sep (y :: l)

/-- `lgr/parser/xml_parser.py` 546-567: `string_to_list`. -/
def stringToList (s : List Char) : List (List Char) := if s.length > 0 then splitOn ' ' s else []

/-- `lgr/utils.py` 50-70: `format_cp` on a sequence. -/
def formatCp (cps : List Nat) : List Char := join ' ' (cps.map (fun c => 'U' :: '+' :: cpToStr c))

/-- The `cp` attribute written by the serialiser, `lgr/parser/xml_serializer.py` 149, 168. -/
def cpAttr (cps : List Nat) : List Char := join ' ' (cps.map cpToStr)

/-- The `cp` attribute read by the parser, `lgr/parser/xml_parser.py` 252, 277-278. -/
def parseCpAttr (s : List Char) : Option (List Nat) := (splitWs s).mapM parseHex

/-- `lgr/tools/utils.py` 74-132: `parse_single_cp_input`. `s[:2].upper() == 'U+'` holds for `U+`
and `u+` (no other character upper-cases to `U`). -/
def parseSingleCp (s0 : List Char) : Except Err Nat :=
  let s := strip s0
  if s.length = 1 then .ok ((s.headD ' ').toNat)
  else
    let v := if s.take 2 = ['U', '+'] ∨ s.take 2 = ['u', '+'] then parseHex (s.drop 2) else parseHex s
    match v with
    | none => .error .valueError
    | some v => if v > 0x10FFFF then .error .valueError else .ok v

/-- `lgr/tools/utils.py` 135-159: `parse_codepoint_input`. -/
def parseCodepointInput (s : List Char) : Except Err (List Nat) := (splitWs s).mapM parseSingleCp

/-! ## Lemmas -/

theorem valueOf_append (b : Nat) (l m : List Nat) (acc : Nat) :
    (l ++ m).foldl (fun v d => v * b + d) acc =
      m.foldl (fun v d => v * b + d) (l.foldl (fun v d => v * b + d) acc) := by
  rw [List.foldl_append]

theorem valueOf_reverse (b : Nat) (l : List Nat) : valueOf b l.reverse = Nat.ofDigits b l := by
  induction l with
  | nil => simp [valueOf, Nat.ofDigits]
  | cons d l ih =>
    unfold valueOf at *
    rw [List.reverse_cons, List.foldl_append, ih, Nat.ofDigits_cons]
    simp only [List.foldl_cons, List.foldl_nil, Nat.cast_id]
    rw [Nat.mul_comm]; omega

theorem valueOf_digitsOf (b n : Nat) : valueOf b (digitsOf b n) = n := by
  unfold digitsOf
  split
  · rename_i h; simp [valueOf, h]
  · rw [valueOf_reverse, Nat.ofDigits_digits]

theorem digitsOf_lt {b : Nat} (hb : 1 < b) (n : Nat) : ∀ d ∈ digitsOf b n, d < b := by
  intro d hd
  unfold digitsOf at hd
  split at hd
  · simp at hd; omega
  · exact Nat.digits_lt_base hb (List.mem_reverse.1 hd)

theorem digitsOf_ne_nil (b n : Nat) : digitsOf b n ≠ [] := by
  unfold digitsOf
  split
  · simp
  · rename_i h
    simp only [ne_eq, List.reverse_eq_nil_iff]
    exact Nat.digits_ne_nil_iff_ne_zero.2 h

theorem valueOf_zeros (b k : Nat) (l : List Nat) :
    valueOf b (List.replicate k 0 ++ l) = valueOf b l := by
  induction k with
  | zero => simp
  | succ k ih =>
    unfold valueOf at *
    simp only [List.replicate_succ, List.cons_append, List.foldl_cons, Nat.zero_mul, Nat.zero_add]
    exact ih

theorem hexVal_digitChar {d : Nat} (h : d < 16) : hexVal (digitChar d) = some d := by
  have : ∀ d : Fin 16, hexVal (digitChar d) = some d.1 := by decide
  exact this ⟨d, h⟩

theorem digitChar_inj {d e : Nat} (hd : d < 16) (he : e < 16) (h : digitChar d = digitChar e) :
    d = e := by
  have h1 := hexVal_digitChar hd
  rw [h, hexVal_digitChar he] at h1
  injection h1 with h1; exact h1.symm

theorem digitChar_nospace {d : Nat} (h : d < 16) :
    isSpace (digitChar d) = false ∧ digitChar d ≠ '-' := by
  have : ∀ d : Fin 16, isSpace (digitChar d) = false ∧ digitChar d ≠ '-' := by decide
  exact this ⟨d, h⟩

theorem mapM_hexVal {l : List Nat} (h : ∀ d ∈ l, d < 16) :
    (l.map digitChar).mapM hexVal = some l := by
  induction l with
  | nil => rfl
  | cons d l ih =>
    rw [List.map_cons, List.mapM_cons, hexVal_digitChar (h d (by simp)),
      ih (fun x hx => h x (by simp [hx]))]
    rfl

theorem cpToStr_eq (n : Nat) : cpToStr n =
    (List.replicate (4 - (hexStr n).length) 0 ++ digitsOf 16 n).map digitChar := by
  have h0 : digitChar 0 = '0' := by decide
  rw [List.map_append, List.map_replicate, h0]
  rfl

theorem cpToStr_digits (n : Nat) : ∃ l : List Nat, cpToStr n = l.map digitChar ∧
    (∀ d ∈ l, d < 16) ∧ valueOf 16 l = n ∧ 4 ≤ l.length := by
  refine ⟨_, cpToStr_eq n, ?_, ?_, ?_⟩
  · intro d hd
    rcases List.mem_append.1 hd with h | h
    · rw [List.mem_replicate] at h; omega
    · exact digitsOf_lt (by omega) n d h
  · rw [valueOf_zeros, valueOf_digitsOf]
  · simp [hexStr]; omega

theorem cpToStr_length (n : Nat) : 4 ≤ (cpToStr n).length := by
  obtain ⟨l, h, _, _, hl⟩ := cpToStr_digits n
  rw [h]; simpa using hl

theorem cpToStr_nospace (n : Nat) : ∀ c ∈ cpToStr n, isSpace c = false ∧ c ≠ '-' := by
  obtain ⟨l, h, h1, _⟩ := cpToStr_digits n
  intro c hc
  rw [h] at hc
  obtain ⟨d, hd, rfl⟩ := List.mem_map.1 hc
  exact digitChar_nospace (h1 d hd)

theorem parseHex_cpToStr (n : Nat) : parseHex (cpToStr n) = some n := by
  obtain ⟨l, h, h1, h2, h3⟩ := cpToStr_digits n
  unfold parseHex
  have hne : cpToStr n ≠ [] := by
    intro h; have := cpToStr_length n; rw [h] at this; simp at this
  split
  · rename_i he; exact absurd he hne
  · rw [h, mapM_hexVal h1]; simp [h2]

theorem splitWs_go_word (w s cur : List Char) (hw : ∀ c ∈ w, isSpace c = false) :
    splitWs.go cur (w ++ s) = splitWs.go (w.reverse ++ cur) s := by
  induction w generalizing cur with
  | nil => rfl
  | cons c w ih =>
    simp only [List.cons_append, splitWs.go, hw c (by simp), Bool.false_eq_true, if_false]
    rw [ih _ (fun x hx => hw x (by simp [hx]))]
    simp

theorem splitWs_join (ws : List (List Char)) (h : ∀ w ∈ ws, w ≠ [] ∧ ∀ c ∈ w, isSpace c = false) :
    splitWs (join ' ' ws) = ws := by
  unfold splitWs
  induction ws with
  | nil => simp [join, splitWs.go]
  | cons w ws ih =>
    obtain ⟨h1, h2⟩ := h w (by simp)
    cases ws with
    | nil =>
      have := splitWs_go_word w [] [] h2
      simp only [List.append_nil] at this
      simp only [join, this, splitWs.go, List.reverse_eq_nil_iff, h1, if_false,
        List.reverse_reverse]
    | cons x ws =>
      have ih' := ih (fun w hw => h w (by simp [hw]))
      simp only [join]
      rw [splitWs_go_word w _ [] h2]
      have hsp : isSpace ' ' = true := by decide
      simp only [List.append_nil, splitWs.go, hsp, if_true, List.reverse_eq_nil_iff, h1, if_false,
        List.reverse_reverse]
      rw [ih']

theorem splitOn_go_word (sep : Char) (w s cur : List Char) (hw : ∀ c ∈ w, c ≠ sep) :
    splitOn.go sep cur (w ++ s) = splitOn.go sep (w.reverse ++ cur) s := by
  induction w generalizing cur with
  | nil => rfl
  | cons c w ih =>
    simp only [List.cons_append, splitOn.go, hw c (by simp), if_false]
    rw [ih _ (fun x hx => hw x (by simp [hx]))]
    simp

theorem splitOn_join (sep : Char) (ws : List (List Char)) (hne : ws ≠ [])
    (h : ∀ w ∈ ws, ∀ c ∈ w, c ≠ sep) : splitOn sep (join sep ws) = ws := by
  unfold splitOn
  induction ws with
  | nil => exact absurd rfl hne
  | cons w ws ih =>
    have h2 := h w (by simp)
    cases ws with
    | nil =>
      have := splitOn_go_word sep w [] [] h2
      simp only [List.append_nil] at this
      simp only [join, this, splitOn.go, List.reverse_reverse]
    | cons x ws =>
      have ih' := ih (by simp) (fun w hw => h w (by simp [hw]))
      simp only [join]
      rw [splitOn_go_word sep w _ [] h2]
      simp only [List.append_nil, splitOn.go, if_true, List.reverse_reverse]
      rw [ih']

theorem dropWhile_none {α} {p : α → Bool} {l : List α} (h : ∀ x ∈ l, p x = false) :
    l.dropWhile p = l := by
  cases l with
  | nil => rfl
  | cons x l => simp [List.dropWhile, h x (by simp)]

theorem strip_none {s : List Char} (h : ∀ c ∈ s, isSpace c = false) : strip s = s := by
  unfold strip
  rw [dropWhile_none h, dropWhile_none (by intro x hx; exact h x (List.mem_reverse.1 hx)),
    List.reverse_reverse]

theorem decStr_inj {m n : Nat} (h : decStr m = decStr n) : m = n := by
  have inj : ∀ l k : List Nat, (∀ d ∈ l, d < 10) → (∀ d ∈ k, d < 10) →
      l.map digitChar = k.map digitChar → l = k := by
    intro l
    induction l with
    | nil => intro k _ _ h; cases k with
      | nil => rfl
      | cons => simp at h
    | cons d l ih =>
      intro k h1 h2 h
      cases k with
      | nil => simp at h
      | cons e k =>
        simp only [List.map_cons, List.cons.injEq] at h
        have hd := h1 d (by simp)
        have he := h2 e (by simp)
        rw [digitChar_inj (by omega) (by omega) h.1,
          ih k (fun x hx => h1 x (by simp [hx])) (fun x hx => h2 x (by simp [hx])) h.2]
  have := inj _ _ (digitsOf_lt (by omega) m) (digitsOf_lt (by omega) n) h
  rw [← valueOf_digitsOf 10 m, this, valueOf_digitsOf]

theorem decStr_head (n : Nat) : ∀ s, decStr n ≠ '-' :: s := by
  intro s h
  have : '-' ∈ decStr n := by rw [h]; simp
  obtain ⟨d, hd, he⟩ := List.mem_map.1 this
  have := digitsOf_lt (b := 10) (by omega) n d hd
  exact (digitChar_nospace (d := d) (by omega)).2 he

theorem intStr_inj {m n : Int} (h : intStr m = intStr n) : m = n := by
  unfold intStr at h
  split at h <;> split at h
  · simp only [List.cons.injEq, true_and] at h
    have := decStr_inj h; omega
  · exact absurd h.symm (decStr_head _ _)
  · exact absurd h (decStr_head _ _)
  · have := decStr_inj h; omega

end Lgr.Text
