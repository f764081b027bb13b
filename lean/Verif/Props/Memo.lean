import Verif.Memo
import Verif.Props.Metadata

/-!
# C60: the scripts of the metadata do not depend on earlier calls
-/

namespace Lgr.Props.C60
open Lgr Memo Scripts

/-! ## The text of a list of strings determines the list -/

theorem hexDigit_inj {n m : Nat} (hn : n < 16) (hm : m < 16) (h : hexDigit n = hexDigit m) : n = m := by
  have : ∀ n < 16, ∀ m < 16, hexDigit n = hexDigit m → n = m := by decide +kernel
  exact this n hn m hm h

theorem hexw_length : ∀ w n, (hexw w n).length = w
  | 0, _ => rfl
  | w + 1, n => by simp [hexw, hexw_length w]

theorem hexw_inj : ∀ (w : Nat) {n m : Nat}, n < 16 ^ w → m < 16 ^ w → hexw w n = hexw w m → n = m
  | 0, n, m, hn, hm, _ => by simp at hn hm; omega
  | w + 1, n, m, hn, hm, h => by
    simp only [hexw] at h
    obtain ⟨h1, h2⟩ := List.append_inj h (by simp [hexw_length])
    have e1 := hexw_inj w (n := n / 16) (m := m / 16) (by rw [Nat.pow_succ] at hn; omega)
      (by rw [Nat.pow_succ] at hm; omega) h1
    simp only [List.cons.injEq, and_true] at h2
    have e2 := hexDigit_inj (Nat.mod_lt n (by omega)) (Nat.mod_lt m (by omega)) h2
    omega

/-- How a character is written: as it is, or as a backslash, a letter and digits. -/
theorem esc_shape (p : Char → Bool) {q : Char} (c : Char) :
    (esc p q c = [c] ∧ c ≠ q ∧ c ≠ '\\') ∨
    ∃ k w, esc p q c = '\\' :: k :: hexw w c.toNat ∧
      ((k = c ∧ w = 0 ∧ (c = q ∨ c = '\\')) ∨ (k = 't' ∧ w = 0 ∧ c = '\t') ∨ (k = 'n' ∧ w = 0 ∧ c = '\n') ∨
        (k = 'r' ∧ w = 0 ∧ c = '\r') ∨ (k = 'x' ∧ w = 2 ∧ c.toNat < 16 ^ 2) ∨ (k = 'u' ∧ w = 4 ∧ c.toNat < 16 ^ 4) ∨
        (k = 'U' ∧ w = 8 ∧ c.toNat < 16 ^ 8)) := by
  have hb : c.toNat < 0x110000 := by
    have h := c.valid
    unfold UInt32.isValidChar Nat.isValidChar at h
    change c.val.toNat < _
    omega
  unfold esc
  split
  · rename_i h
    exact .inr ⟨c, 0, rfl, .inl ⟨rfl, rfl, h⟩⟩
  rename_i h0
  rw [not_or] at h0
  split
  · rename_i h; exact .inr ⟨'t', 0, rfl, .inr (.inl ⟨rfl, rfl, h⟩)⟩
  split
  · rename_i h; exact .inr ⟨'n', 0, rfl, .inr (.inr (.inl ⟨rfl, rfl, h⟩))⟩
  split
  · rename_i h; exact .inr ⟨'r', 0, rfl, .inr (.inr (.inr (.inl ⟨rfl, rfl, h⟩)))⟩
  split
  · exact .inr ⟨'x', 2, rfl, .inr (.inr (.inr (.inr (.inl ⟨rfl, rfl, by omega⟩))))⟩
  split
  · exact .inl ⟨rfl, h0⟩
  split
  · exact .inr ⟨'x', 2, rfl, .inr (.inr (.inr (.inr (.inl ⟨rfl, rfl, by omega⟩))))⟩
  split
  · exact .inr ⟨'u', 4, rfl, .inr (.inr (.inr (.inr (.inr (.inl ⟨rfl, rfl, by omega⟩)))))⟩
  · exact .inr ⟨'U', 8, rfl, .inr (.inr (.inr (.inr (.inr (.inr ⟨rfl, rfl, by omega⟩)))))⟩

/-- The first character of a text written is determined. -/
theorem esc_inj {p : Char → Bool} {q : Char} (hq : q = '\'' ∨ q = '"') {c c' : Char} {r r' : List Char}
    (h : esc p q c ++ r = esc p q c' ++ r') : c = c' ∧ r = r' := by
  have key : ∀ w, ∀ {r r' : List Char}, c.toNat < 16 ^ w → c'.toNat < 16 ^ w →
      hexw w c.toNat ++ r = hexw w c'.toNat ++ r' → c = c' ∧ r = r' := by
    intro w r r' h1 h2 h3
    obtain ⟨h4, h5⟩ := List.append_inj h3 (by simp [hexw_length])
    exact ⟨Char.toNat_inj.1 (hexw_inj w h1 h2 h4), h5⟩
  rcases esc_shape p (q := q) c with ⟨e, n1, n2⟩ | ⟨k, w, e, s⟩ <;>
    rcases esc_shape p (q := q) c' with ⟨e', n1', n2'⟩ | ⟨k', w', e', s'⟩ <;> rw [e, e'] at h
  · simpa using h
  · simp only [List.cons_append, List.nil_append, List.cons.injEq] at h
    exact absurd h.1 n2
  · simp only [List.cons_append, List.nil_append, List.cons.injEq] at h
    exact absurd h.1.symm n2'
  · simp only [List.cons_append, List.cons.injEq, true_and] at h
    obtain ⟨hk, h⟩ := h
    subst hk
    rcases s with ⟨a, b, d⟩ | ⟨a, b, d⟩ | ⟨a, b, d⟩ | ⟨a, b, d⟩ | ⟨a, b, d⟩ | ⟨a, b, d⟩ | ⟨a, b, d⟩ <;>
    rcases s' with ⟨a', b', d'⟩ | ⟨a', b', d'⟩ | ⟨a', b', d'⟩ | ⟨a', b', d'⟩ | ⟨a', b', d'⟩ | ⟨a', b', d'⟩ | ⟨a', b', d'⟩ <;>
    subst b <;> subst b' <;>
    first
    | exact key _ d d' h
    | (rw [d, d']; exact ⟨rfl, h⟩)
    | (rw [← a, ← a']; exact ⟨rfl, h⟩)
    | (exfalso; subst a; revert a'; decide)
    | (exfalso; rw [← a, a'] at d; rcases hq with rfl | rfl <;> revert d <;> decide)
    | (exfalso; rw [← a', a] at d'; rcases hq with rfl | rfl <;> revert d' <;> decide)

theorem esc_head {p : Char → Bool} {q : Char} (hq : q = '\'' ∨ q = '"') (c : Char) :
    ∃ a l, esc p q c = a :: l ∧ a ≠ q := by
  rcases esc_shape p (q := q) c with ⟨e, n1, n2⟩ | ⟨k, w, e, s⟩
  · exact ⟨c, [], e, n1⟩
  · exact ⟨_, _, e, by rcases hq with rfl | rfl <;> decide⟩

theorem body_inj {p : Char → Bool} {q : Char} (hq : q = '\'' ∨ q = '"') : ∀ {s s' r r' : List Char},
    s.flatMap (esc p q) ++ q :: r = s'.flatMap (esc p q) ++ q :: r' → s = s' ∧ r = r'
  | [], [], r, r', h => by simpa using h
  | [], c' :: s', r, r', h => by
    obtain ⟨a, l, e, hn⟩ := esc_head (p := p) hq c'
    simp only [List.flatMap_nil, List.flatMap_cons, e, List.nil_append, List.cons_append, List.cons.injEq] at h
    exact absurd h.1.symm hn
  | c :: s, [], r, r', h => by
    obtain ⟨a, l, e, hn⟩ := esc_head (p := p) hq c
    simp only [List.flatMap_nil, List.flatMap_cons, e, List.nil_append, List.cons_append, List.cons.injEq] at h
    exact absurd h.1 hn
  | c :: s, c' :: s', r, r', h => by
    simp only [List.flatMap_cons, List.append_assoc] at h
    obtain ⟨rfl, h1⟩ := esc_inj hq h
    obtain ⟨rfl, h2⟩ := body_inj hq h1
    exact ⟨rfl, h2⟩

theorem quote_or (s : List Char) : quote s = '\'' ∨ quote s = '"' := by
  unfold quote; split <;> simp

theorem repr_inj {p : Char → Bool} {s s' r r' : List Char} (h : reprStr p s ++ r = reprStr p s' ++ r') :
    s = s' ∧ r = r' := by
  unfold Memo.reprStr at h
  simp only [List.cons_append, List.append_assoc, List.nil_append, List.cons.injEq] at h
  rw [← h.1] at h
  exact body_inj (quote_or s) h.2

theorem tail_inj {p : Char → Bool} : ∀ {l l' : List String}, reprTail p l = reprTail p l' → l = l'
  | [], [], _ => rfl
  | [], s' :: l', h => by simp [reprTail] at h
  | s :: l, [], h => by simp [reprTail] at h
  | s :: l, s' :: l', h => by
    simp only [reprTail, List.cons_append, List.cons.injEq, true_and] at h
    obtain ⟨h1, h2⟩ := repr_inj h
    rw [String.toList_inj.1 h1, tail_inj h2]

/-- Lists of strings of the same text are the same. -/
theorem strList_inj {p : Char → Bool} {l l' : List String} (h : strList p l = strList p l') : l = l' := by
  match l, l' with
  | [], [] => rfl
  | [], s' :: l' => simp [strList, Memo.reprStr, quote] at h
  | s :: l, [] => simp [strList, Memo.reprStr, quote] at h
  | s :: l, s' :: l' =>
    simp only [strList, List.cons_append, List.cons.injEq, true_and] at h
    obtain ⟨h1, h2⟩ := repr_inj h
    rw [String.toList_inj.1 h1, tail_inj h2]

theorem strArgs_inj {f f' : Form} (h : strArgs f = strArgs f') : f = f' := by
  cases f with
  | plain => cases f' with
    | plain => rfl
    | pos b => cases b <;> revert h <;> decide
    | kw b => cases b <;> revert h <;> decide
  | pos b => cases f' with
    | plain => cases b <;> revert h <;> decide
    | pos b' => cases b <;> cases b' <;> revert h <;> decide
    | kw b' => cases b <;> cases b' <;> revert h <;> decide
  | kw b => cases f' with
    | plain => cases b <;> revert h <;> decide
    | pos b' => cases b <;> cases b' <;> revert h <;> decide
    | kw b' => cases b <;> cases b' <;> revert h <;> decide

/-! ## The property -/

/-- **C60** Whatever calls of `get_scripts` came before, in whatever form, and however the languages were changed in
between, `get_scripts` returns the scripts of the present languages. -/
theorem scripts_fresh (p : Char → Bool) (tag : String → Tag) (langs : List String) (ops : List (Metadata.MemoOp Form))
    (f : Form) :
    let o := ops.foldl (scriptStep p tag) { attr := langs }
    (callScripts p tag o f).2 = getScripts tag f.allow o.attr :=
  memo_fresh (strAttr p) strArgs (fun _ _ h => strList_inj (String.ofList_injective h)) (fun _ _ h => strArgs_inj h)
    "get_scripts" (body tag) langs ops f

/-! Non-vacuity: `["a', 'b"]` and `["a", "b"]` have different texts; the languages are changed between two calls. -/
example : String.ofList (strList (fun _ => true) ["a', 'b"]) = "[\"a', 'b\"]" ∧
    String.ofList (strList (fun _ => true) ["a", "b"]) = "['a', 'b']" ∧
    String.ofList (strList (fun _ => false) ["\\'\"\n\u00e9"]) = "['\\\\\\'\"\\n\\xe9']" := by decide +kernel

example : (callScripts (fun _ => true) (fun l => ⟨true, some l, none⟩)
    ([.call .plain, .setAttr ["Latn"], .call .plain, .call (.kw true)].foldl
      (scriptStep (fun _ => true) (fun l => ⟨true, some l, none⟩)) { attr := ["Jpan"] }) .plain).2 = ["Latn"] := by
  decide +kernel

end Lgr.Props.C60
