import Verif.RulesXml
import Verif.Props.MetaXml
import Verif.Props.RuleState

/-!
# C101: the `<rules>` section read back
-/

namespace Lgr.Props.C101
open Lgr Xml Text RulesXml

/-! ## Kinds of elements -/

def isCls (n : Node) : Bool := decide (n.tag = "class" ∨ (combOf n.tag).isSome)
def isRule (n : Node) : Bool := decide (n.tag = "rule")
def isAct (n : Node) : Bool := decide (n.tag = "action")

theorem not_cls_of_rule {n : Node} (h : isRule n = true) : isCls n = false := by
  simp only [isRule, decide_eq_true_eq] at h
  simp [isCls, h, combOf]

theorem not_cls_of_act {n : Node} (h : isAct n = true) : isCls n = false := by
  simp only [isAct, decide_eq_true_eq] at h
  simp [isCls, h, combOf]

theorem not_rule_of_act {n : Node} (h : isAct n = true) : isRule n = false := by
  simp only [isAct, decide_eq_true_eq] at h
  simp [isRule, h]

/-! ## More classes -/

/-- A class which only lists code points. -/
def Plain (b : BaseCls) : Prop := b.byRef = none ∧ b.fromTag = none ∧ b.property = none

/-- The same class, or two lists of the same code points. -/
def CEq (k k' : Cls) : Prop :=
  k = k' ∨ ∃ b b', k = .base b ∧ k' = .base b' ∧ Plain b ∧ Plain b' ∧ ∀ c, c ∈ b.codepoints ↔ c ∈ b'.codepoints

theorem CEq.trans {a b c : Cls} (h : CEq a b) (h' : CEq b c) : CEq a c := by
  rcases h with rfl | ⟨x, y, rfl, rfl, hx, hy, hxy⟩
  · exact h'
  · rcases h' with rfl | ⟨y', z, hyy, rfl, -, hz, hyz⟩
    · exact .inr ⟨x, y, rfl, rfl, hx, hy, hxy⟩
    · cases hyy
      exact .inr ⟨x, z, rfl, rfl, hx, hz, fun c => (hxy c).trans (hyz c)⟩

/-- The classes `cl'` can take the place of `cl`; for patterns, they must mean the same. -/
def Ext (udb : Bool) (cl cl' : List (String × Cls)) : Prop :=
  (∀ n, (dget cl n).isSome → (dget cl' n).isSome) ∧
  (udb = true → (∀ n c, dget cl n = some c → ∃ c', dget cl' n = some c' ∧ CEq c c') ∧
    ∀ t, dget cl (Cls.tagPrefix ++ t) = none → dget cl' (Cls.tagPrefix ++ t) = none)

theorem Ext.refl {udb : Bool} (cl : List (String × Cls)) : Ext udb cl cl :=
  ⟨fun _ h => h, fun _ => ⟨fun _ c h => ⟨c, h, .inl rfl⟩, fun _ h => h⟩⟩

theorem Ext.trans {udb : Bool} {a b c : List (String × Cls)} (h : Ext udb a b) (h' : Ext udb b c) :
    Ext udb a c := by
  refine ⟨fun n hn => h'.1 n (h.1 n hn), fun hu => ⟨fun n k hk => ?_, fun t ht => (h'.2 hu).2 t ((h.2 hu).2 t ht)⟩⟩
  obtain ⟨k1, h1, e1⟩ := (h.2 hu).1 n k hk
  obtain ⟨k2, h2, e2⟩ := (h'.2 hu).1 n k1 h1
  exact ⟨k2, h2, e1.trans e2⟩

/-- The same names, with the same classes or with lists of the same code points. -/
def Sim (udb : Bool) (cl cl' : List (String × Cls)) : Prop :=
  (∀ n, (dget cl n).isSome = (dget cl' n).isSome) ∧
  (udb = true → ∀ n c, dget cl n = some c → ∃ c', dget cl' n = some c' ∧ CEq c c')

theorem Sim.ext {udb : Bool} {cl cl' : List (String × Cls)} (h : Sim udb cl cl') : Ext udb cl cl' :=
  ⟨fun n hn => h.1 n ▸ hn, fun hu => ⟨h.2 hu, fun t ht => by
    have := h.1 (Cls.tagPrefix ++ t)
    rw [ht] at this
    simpa using this.symm⟩⟩

mutual
theorem cls_validate_ext {cl cl' : List (String × Cls)} (h : ∀ n, (dget cl n).isSome → (dget cl' n).isSome) :
    ∀ (k : Cls) (top : Bool), Cls.validate cl top k = .ok () → Cls.validate cl' top k = .ok ()
  | .base b, top => by
    intro hv
    simp only [Cls.validate] at hv ⊢
    split at hv
    · cases hv
    · rename_i h1
      split at hv
      · cases hv
      · rename_i h2
        rw [if_neg, if_neg h2]
        rintro ⟨h3, h4⟩
        refine h1 ⟨h3, ?_⟩
        cases hb : b.byRef with
        | none => rfl
        | some n =>
          rw [hb] at h4
          simp only [Option.bind_some] at h4 ⊢
          cases hd : dget cl n with
          | none => rfl
          | some c =>
            have := h n (by rw [hd]; rfl)
            simp [Option.isNone_iff_eq_none] at h4
            simp [h4] at this
  | .comb nm op cs, top => by
    intro hv
    simp only [Cls.validate] at hv ⊢
    split at hv
    · cases hv
    · rename_i h1
      rw [if_neg h1]
      cases hc : Cls.validateAll cl cs with
      | error e => rw [hc] at hv; cases hv
      | ok u =>
        rw [hc] at hv
        rw [clss_validate_ext h cs hc]
        exact hv
theorem clss_validate_ext {cl cl' : List (String × Cls)} (h : ∀ n, (dget cl n).isSome → (dget cl' n).isSome) :
    ∀ (cs : List Cls), Cls.validateAll cl cs = .ok () → Cls.validateAll cl' cs = .ok ()
  | [] => fun _ => rfl
  | c :: cs => by
    intro hv
    simp only [Cls.validateAll] at hv ⊢
    cases hc : Cls.validate cl false c with
    | error e => rw [hc] at hv; cases hv
    | ok u =>
      rw [hc] at hv
      rw [cls_validate_ext h c false hc]
      exact clss_validate_ext h cs hv
end

mutual
theorem validate_ext {lk lk' : Lookups} (hr : lk'.rules = lk.rules)
    (h : ∀ n, (dget lk.classes n).isSome → (dget lk'.classes n).isSome) :
    ∀ (m : Matcher) (top : Bool), Matcher.validate lk top m = .ok () → Matcher.validate lk' top m = .ok ()
  | .start, _ => fun _ => by simp [Matcher.validate]
  | .fin, _ => fun _ => by simp [Matcher.validate]
  | .anchor, _ => fun _ => by simp [Matcher.validate]
  | .any _, _ => fun _ => by simp [Matcher.validate]
  | .char _ _, _ => fun _ => by simp [Matcher.validate]
  | .ahead ms, _ => by simp only [Matcher.validate]; exact validates_ext hr h ms
  | .behind ms, _ => by simp only [Matcher.validate]; exact validates_ext hr h ms
  | .choice ms _, _ => by simp only [Matcher.validate]; exact validates_ext hr h ms
  | .cls k _, _ => by simp only [Matcher.validate]; exact cls_validate_ext h k false
  | .rule _ nm br ms _, top => by
    simp only [Matcher.validate, hr]
    split
    · exact id
    · split
      · exact id
      · exact validates_ext hr h ms
theorem validates_ext {lk lk' : Lookups} (hr : lk'.rules = lk.rules)
    (h : ∀ n, (dget lk.classes n).isSome → (dget lk'.classes n).isSome) :
    ∀ (ms : List Matcher), Matcher.validateAll lk ms = .ok () → Matcher.validateAll lk' ms = .ok ()
  | [] => fun _ => rfl
  | m :: ms => by
    intro hv
    simp only [Matcher.validateAll] at hv ⊢
    cases hc : Matcher.validate lk false m with
    | error e => rw [hc] at hv; cases hv
    | ok u =>
      rw [hc] at hv
      rw [validate_ext hr h m false hc]
      exact validates_ext hr h ms hv
end

variable {db : String → Except Err CpSet}

theorem mapM_ok {α β : Type} {f g : α → Except Err β} {l : List α} {r : List β}
    (h : ∀ a b, f a = .ok b → g a = .ok b) (hf : l.mapM f = .ok r) : l.mapM g = .ok r := by
  induction l generalizing r with
  | nil => exact hf
  | cons a l ih =>
    rw [List.mapM_cons] at hf ⊢
    cases ha : f a with
    | error e => rw [ha] at hf; cases hf
    | ok b =>
      rw [ha] at hf
      rw [h a b ha]
      simp only [bind, Except.bind] at hf ⊢
      cases hl : l.mapM f with
      | error e => rw [hl] at hf; cases hf
      | ok r' =>
        rw [hl] at hf
        rw [ih hl]
        exact hf

/-- A set which could be computed is the same with more classes. -/
theorem getSet_ext {cl cl' : List (String × Cls)} (h : Ext true cl cl') :
    ∀ (fuel : Nat) (k k' : Cls) (s : CpSet), CEq k k' → Cls.getSet db cl fuel k = .ok s →
      Cls.getSet db cl' fuel k' = .ok s := by
  obtain ⟨-, h⟩ := h
  obtain ⟨h, ht⟩ := h rfl
  intro fuel
  induction fuel with
  | zero => intro k k' s _ hs; simp [Cls.getSet] at hs
  | succ fuel ih' =>
    intro k k' s hkk hs
    rcases hkk with rfl | ⟨b, b', rfl, rfl, ⟨p1, p2, p3⟩, ⟨q1, q2, q3⟩, hb⟩
    swap
    · rw [Cls.getSet, p1] at hs
      rw [Cls.getSet, q1]
      simp only [p2, p3, q2, q3] at hs ⊢
      rw [← hs]
      congr 1
      funext c
      simp [hb c]
    have ih : ∀ (k : Cls) (s : CpSet), Cls.getSet db cl fuel k = .ok s → Cls.getSet db cl' fuel k = .ok s :=
      fun k s => ih' k k s (.inl rfl)
    cases k with
    | base b =>
      rw [Cls.getSet] at hs ⊢
      cases hb : b.byRef with
      | some n =>
        simp only [hb] at hs ⊢
        cases hd : dget cl n with
        | none => simp [hd] at hs
        | some c =>
          obtain ⟨c', hc', e⟩ := h n c hd
          simp only [hd, hc'] at hs ⊢; exact ih' _ _ _ e hs
      | none =>
        simp only [hb] at hs ⊢
        cases hf : b.fromTag with
        | some t =>
          simp only [hf] at hs ⊢
          cases hd : dget cl (Cls.tagPrefix ++ t) with
          | none => simp only [hd, ht t hd] at hs ⊢; exact hs
          | some c =>
            obtain ⟨c', hc', e⟩ := h _ c hd
            simp only [hd, hc'] at hs ⊢; exact ih' _ _ _ e hs
        | none => simpa only [hf] using hs
    | comb nm op cs =>
      have two : ∀ op : Comb, op ≠ .complement → op ≠ .union →
          Cls.getSet db cl (fuel + 1) (.comb nm op cs) = .ok s →
          Cls.getSet db cl' (fuel + 1) (.comb nm op cs) = .ok s := by
        intro op h1 h2 hs
        cases cs with
        | nil => cases op <;> simp [Cls.getSet] at h1 h2 hs
        | cons c cs =>
          cases hc : Cls.getSet db cl fuel c with
          | error e => cases op <;> simp [Cls.getSet, hc] at h1 h2 hs
          | ok s1 =>
            cases cs with
            | nil => cases op <;> simp [Cls.getSet, hc] at h1 h2 hs
            | cons d cs =>
              cases hd : Cls.getSet db cl fuel d with
              | error e => cases op <;> simp [Cls.getSet, hc, hd] at h1 h2 hs
              | ok s2 =>
                have e1 := ih c _ hc
                have e2 := ih d _ hd
                cases op <;> simp [Cls.getSet, hc, hd, e1, e2] at h1 h2 hs ⊢ <;> exact hs
      cases op with
      | complement =>
        cases cs with
        | nil => simp [Cls.getSet] at hs
        | cons c cs =>
          cases hc : Cls.getSet db cl fuel c with
          | error e => simp [Cls.getSet, hc] at hs
          | ok s1 => simpa [Cls.getSet, hc, ih c _ hc] using hs
      | union =>
        rw [Cls.getSet] at hs ⊢
        cases hc : cs.mapM (Cls.getSet db cl fuel) with
        | error e => rw [hc] at hs; cases hs
        | ok r =>
          rw [hc] at hs
          rw [mapM_ok (fun a b => ih a b) hc]
          exact hs
      | intersection => exact two _ (by simp) (by simp) hs
      | difference => exact two _ (by simp) (by simp) hs
      | symDiff => exact two _ (by simp) (by simp) hs

theorem mapC_ext {f g : Matcher → Cache → Cache × Except Err Re}
    (h : ∀ m κ κ' r, f m κ = (κ', .ok r) → g m κ = (κ', .ok r)) :
    ∀ (ms : List Matcher) (κ κ' : Cache) (rs : List Re), Matcher.mapC f ms κ = (κ', .ok rs) →
      Matcher.mapC g ms κ = (κ', .ok rs) := by
  intro ms
  induction ms with
  | nil => intro κ κ' rs hm; exact hm
  | cons m ms ih =>
    intro κ κ' rs hm
    rw [Matcher.mapC] at hm ⊢
    rcases hf : f m κ with ⟨κ1, o⟩
    rw [hf] at hm
    cases o with
    | error e => simp at hm
    | ok r =>
      rw [h m κ κ1 r hf]
      simp only at hm ⊢
      rcases hl : Matcher.mapC f ms κ1 with ⟨κ2, o2⟩
      rw [hl] at hm
      cases o2 with
      | error e => simp at hm
      | ok rs' =>
        rw [ih _ _ _ hl]
        exact hm

/-- A pattern which could be made is the same with more classes. -/
theorem patternC_ext {lk lk' : Lookups} (hr : lk'.rules = lk.rules) (h : Ext true lk.classes lk'.classes) :
    ∀ (fuel : Nat) (beh : Bool) (m : Matcher) (κ κ' : Cache) (r : Re),
      Matcher.patternC db lk fuel beh m κ = (κ', .ok r) → Matcher.patternC db lk' fuel beh m κ = (κ', .ok r) := by
  intro fuel
  induction fuel with
  | zero => intro beh m κ κ' r hp; simp [Matcher.patternC] at hp
  | succ fuel ih =>
    intro beh m κ κ' r hp
    have lists : ∀ (beh' : Bool) (ms : List Matcher) (κ' : Cache) (rs : List Re),
        Matcher.mapC (Matcher.patternC db lk fuel beh') ms κ = (κ', .ok rs) →
        Matcher.mapC (Matcher.patternC db lk' fuel beh') ms κ = (κ', .ok rs) :=
      fun beh' ms κ' rs => mapC_ext (fun m κ κ' r => ih beh' m κ κ' r) ms κ κ' rs
    cases m with
    | start => simpa [Matcher.patternC] using hp
    | fin => simpa [Matcher.patternC] using hp
    | anchor => simpa [Matcher.patternC] using hp
    | any c => simpa [Matcher.patternC] using hp
    | char cps c => simpa [Matcher.patternC] using hp
    | ahead ms =>
      rw [Matcher.patternC] at hp ⊢
      rcases hl : Matcher.mapC (Matcher.patternC db lk fuel false) ms κ with ⟨κ1, o⟩
      rw [hl] at hp
      cases o with
      | error e => simp at hp
      | ok rs => rw [lists _ _ _ _ hl]; exact hp
    | behind ms =>
      rw [Matcher.patternC] at hp ⊢
      rcases hl : Matcher.mapC (Matcher.patternC db lk fuel true) ms κ with ⟨κ1, o⟩
      rw [hl] at hp
      cases o with
      | error e => simp at hp
      | ok rs => rw [lists _ _ _ _ hl]; exact hp
    | choice ms c =>
      rw [Matcher.patternC] at hp ⊢
      rcases hl : Matcher.mapC (Matcher.patternC db lk fuel beh) ms κ with ⟨κ1, o⟩
      rw [hl] at hp
      cases o with
      | error e => simp at hp
      | ok rs => rw [lists _ _ _ _ hl]; exact hp
    | cls k c =>
      rw [Matcher.patternC] at hp ⊢
      unfold Matcher.classPattern at hp ⊢
      cases hs : Cls.getSet db lk.classes fuel k with
      | error e => simp [hs] at hp
      | ok s => rw [hs] at hp; rw [getSet_ext h fuel k k s (.inl rfl) hs]; exact hp
    | rule id nm br ms c =>
      rw [Matcher.patternC.eq_def] at hp ⊢
      simp only [hr] at hp ⊢
      cases hk : dget κ (id, beh) with
      | some r' => simp only [hk] at hp ⊢; exact hp
      | none =>
        simp only [hk] at hp ⊢
        cases br with
        | some n =>
          simp only at hp ⊢
          cases hd : dget lk.rules n with
          | none => simp [hd] at hp
          | some m' =>
            simp only [hd] at hp ⊢
            rcases hl : Matcher.patternC db lk fuel beh m' κ with ⟨κ1, o⟩
            rw [hl] at hp
            cases o with
            | error e => simp at hp
            | ok rs => rw [ih _ _ _ _ _ hl]; exact hp
        | none =>
          simp only at hp ⊢
          rcases hl : Matcher.mapC (Matcher.patternC db lk fuel beh) ms κ with ⟨κ1, o⟩
          rw [hl] at hp
          cases o with
          | error e => simp at hp
          | ok rs => rw [lists _ _ _ _ hl]; exact hp

theorem precalculate_ext {lk lk' : Lookups} (hr : lk'.rules = lk.rules) (h : Ext true lk.classes lk'.classes)
    {fuel : Nat} {m : Matcher} {κ κ' : Cache} (hp : Matcher.precalculate db lk fuel m κ = (κ', .ok ())) :
    Matcher.precalculate db lk' fuel m κ = (κ', .ok ()) := by
  unfold Matcher.precalculate at hp ⊢
  rcases h1 : Matcher.patternC db lk fuel true m κ with ⟨κ1, o⟩
  rw [h1] at hp
  cases o with
  | error e => simp at hp
  | ok r =>
    rw [patternC_ext hr h _ _ _ _ _ _ h1]
    simp only at hp ⊢
    rcases h2 : Matcher.patternC db lk fuel false m κ1 with ⟨κ2, o2⟩
    rw [h2] at hp
    cases o2 with
    | error e => simp at hp
    | ok r2 => rw [patternC_ext hr h _ _ _ _ _ _ h2]; exact hp

/-! ## Unhandled elements do not change what is read -/

mutual
theorem helper_bad : ∀ (n : Node) (i : Nat), ∃ j w o, ∀ b, parseHelper ⟨i, b⟩ n = (⟨j, b || w⟩, o)
  | .mk tag attrs text children, i => by
    cases hc : parseCount (dget attrs "count") with
    | error e => exact ⟨i, false, .error e, fun b => by rw [parseHelper, hc]; simp⟩
    | ok count =>
      have lists : ∀ (i : Nat) (cl : Bool) (F : List Matcher → Matcher), ∃ j w o, ∀ b,
          (match parseHelpers cl ⟨i, b⟩ children with
            | (s, .error e) => (s, .error e)
            | (s, .ok ms) => (s, .ok (some (F ms)))) = ((⟨j, b || w⟩ : RState), (o : Except Err (Option Matcher))) := by
        intro i cl F
        obtain ⟨j, w, o, h⟩ := helpers_bad children cl i
        cases o with
        | error e => exact ⟨j, w, .error e, fun b => by rw [h]⟩
        | ok ms => exact ⟨j, w, .ok (some (F ms)), fun b => by rw [h]⟩
      by_cases h1 : tag = "anchor"
      · exact ⟨i, false, _, fun b => by rw [parseHelper, hc]; dsimp only; rw [if_pos h1, Bool.or_false]⟩
      by_cases h2 : tag = "any"
      · exact ⟨i, false, _, fun b => by rw [parseHelper, hc]; dsimp only; rw [if_neg h1, if_pos h2, Bool.or_false]⟩
      by_cases h3 : tag = "char"
      · cases hg : getCp attrs with
        | error e =>
          exact ⟨i, false, .error e, fun b => by
            rw [parseHelper, hc]; dsimp only; rw [if_neg h1, if_neg h2, if_pos h3, hg, Bool.or_false]⟩
        | ok cp =>
          exact ⟨i, false, .ok (some (.char cp count)), fun b => by
            rw [parseHelper, hc]; dsimp only; rw [if_neg h1, if_neg h2, if_pos h3, hg, Bool.or_false]⟩
      by_cases h4 : tag = "choice"
      · obtain ⟨j, w, o, h⟩ := lists i false (fun ms => .choice ms count)
        exact ⟨j, w, o, fun b => by
          rw [parseHelper, hc]; dsimp only; rw [if_neg h1, if_neg h2, if_neg h3, if_pos h4]; exact h b⟩
      by_cases h5 : tag = "end"
      · exact ⟨i, false, _, fun b => by
          rw [parseHelper, hc]; dsimp only
          rw [if_neg h1, if_neg h2, if_neg h3, if_neg h4, if_pos h5, Bool.or_false]⟩
      by_cases h6 : tag = "look-ahead"
      · obtain ⟨j, w, o, h⟩ := lists i false (fun ms => .ahead ms)
        exact ⟨j, w, o, fun b => by
          rw [parseHelper, hc]; dsimp only
          rw [if_neg h1, if_neg h2, if_neg h3, if_neg h4, if_neg h5, if_pos h6]; exact h b⟩
      by_cases h7 : tag = "look-behind"
      · obtain ⟨j, w, o, h⟩ := lists i false (fun ms => .behind ms)
        exact ⟨j, w, o, fun b => by
          rw [parseHelper, hc]; dsimp only
          rw [if_neg h1, if_neg h2, if_neg h3, if_neg h4, if_neg h5, if_neg h6, if_pos h7]; exact h b⟩
      by_cases h8 : tag = "start"
      · exact ⟨i, false, _, fun b => by
          rw [parseHelper, hc]; dsimp only
          rw [if_neg h1, if_neg h2, if_neg h3, if_neg h4, if_neg h5, if_neg h6, if_neg h7, if_pos h8,
            Bool.or_false]⟩
      by_cases h9 : tag = "rule"
      · by_cases hr : (dget attrs "name").isSome ∧ (dget attrs "by-ref").isSome
        · exact ⟨i, false, _, fun b => by
            rw [parseHelper, hc]; dsimp only
            rw [if_neg h1, if_neg h2, if_neg h3, if_neg h4, if_neg h5, if_neg h6, if_neg h7, if_neg h8,
              if_pos h9, if_pos hr, Bool.or_false]⟩
        · obtain ⟨j, w, o, h⟩ := lists (i + 1) (dget attrs "by-ref").isSome
            (fun ms => .rule i (dget attrs "name") (dget attrs "by-ref") ms count)
          exact ⟨j, w, o, fun b => by
            rw [parseHelper, hc]; dsimp only
            rw [if_neg h1, if_neg h2, if_neg h3, if_neg h4, if_neg h5, if_neg h6, if_neg h7, if_neg h8,
              if_pos h9, if_neg hr]; exact h b⟩
      by_cases h10 : tag = "class" ∨ (combOf tag).isSome
      · cases hk : parseClass (.mk tag attrs text children) with
        | error e =>
          exact ⟨i, false, .error e, fun b => by
            rw [parseHelper, hc]; dsimp only
            rw [if_neg h1, if_neg h2, if_neg h3, if_neg h4, if_neg h5, if_neg h6, if_neg h7, if_neg h8,
              if_neg h9, if_pos h10, hk, Bool.or_false]⟩
        | ok k =>
          exact ⟨i, false, .ok (some (.cls k count)), fun b => by
            rw [parseHelper, hc]; dsimp only
            rw [if_neg h1, if_neg h2, if_neg h3, if_neg h4, if_neg h5, if_neg h6, if_neg h7, if_neg h8,
              if_neg h9, if_pos h10, hk, Bool.or_false]⟩
      · exact ⟨i, true, _, fun b => by
          rw [parseHelper, hc]; dsimp only
          rw [if_neg h1, if_neg h2, if_neg h3, if_neg h4, if_neg h5, if_neg h6, if_neg h7, if_neg h8,
            if_neg h9, if_neg h10, Bool.or_true]⟩
theorem helpers_bad : ∀ (ns : List Node) (cl : Bool) (i : Nat), ∃ j w o, ∀ b,
    parseHelpers cl ⟨i, b⟩ ns = (⟨j, b || w⟩, o)
  | [], cl, i => ⟨i, false, .ok [], fun b => by simp [parseHelpers]⟩
  | n :: ns, cl, i => by
    obtain ⟨j, w, o, h⟩ := helper_bad n i
    simp only [parseHelpers, h]
    cases o with
    | error e => exact ⟨j, w, .error e, fun b => rfl⟩
    | ok o =>
      obtain ⟨j', w', o', h'⟩ := helpers_bad ns cl j
      cases o with
      | none => exact ⟨j', w || w', o', fun b => by simp only [h', Bool.or_assoc]⟩
      | some m =>
        cases cl with
        | true => exact ⟨j, w, _, fun b => by simp; rfl⟩
        | false =>
          cases o' with
          | error e => exact ⟨j', w || w', .error e, fun b => by simp [h', Bool.or_assoc]⟩
          | ok ms => exact ⟨j', w || w', .ok (m :: ms), fun b => by simp [h', Bool.or_assoc]⟩
end

theorem rule_bad (n : Node) (i : Nat) : ∃ j w o, ∀ b, parseRuleElem ⟨i, b⟩ n = (⟨j, b || w⟩, o) := by
  unfold parseRuleElem
  split
  · exact ⟨i, false, _, fun b => by simp; rfl⟩
  · obtain ⟨j, w, o, h⟩ := helpers_bad n.children (dget n.attrs "by-ref").isSome (i + 1)
    simp only [h]
    cases o with
    | error e => exact ⟨j, w, .error e, fun b => rfl⟩
    | ok ms => exact ⟨j, w, _, fun b => rfl⟩

/-! ## Names of classes -/

theorem addCps_name {b b' : BaseCls} {n : Node} (h : addCps b n = .ok b') : b'.name = b.name := by
  unfold addCps at h
  split at h
  · cases h
  · split at h
    · cases h
    · split at h
      · cases h
      · cases h; rfl

theorem addAll_name {b b' : BaseCls} {ns : List Node} (h : addAll b ns = .ok b') : b'.name = b.name := by
  induction ns generalizing b with
  | nil => cases h; rfl
  | cons n ns ih =>
    rw [addAll] at h
    split at h
    · cases h
    · rename_i b1 h1
      rw [ih h, addCps_name h1]

theorem parseClass_name {n : Node} {k : Cls} (h : parseClass n = .ok k) :
    RuleState.clsName k = dget n.attrs "name" := by
  cases n with
  | mk tag attrs text children =>
    rw [parseClass] at h
    simp only [Node.attrs]
    split at h
    · split at h
      · cases h
      · rename_i b hb
        have hn : b.name = dget attrs "name" := by
          unfold Cls.mkBase at hb
          split at hb
          · split at hb
            · cases hb
            · cases hb; rfl
          · cases hb; rfl
        split at h
        · cases h
        · rename_i b1 h1
          have hn1 : b1.name = b.name := by
            split at h1
            · exact addCps_name h1
            · cases h1; rfl
          split at h
          · cases h
          · rename_i b2 h2
            cases h
            simp only [RuleState.clsName]
            rw [addAll_name h2, hn1, hn]
    · split at h
      · cases h
      · split at h
        · cases h
        · cases h; rfl

/-! ## One element -/

variable {P : Parser}

/-- The part of the state about classes. -/
def cpart (r : Rules) : List (String × Cls) × List (Option String) × List Node :=
  (r.rs.lk.classes, r.clsNames, r.clsXml)

/-- The part about rules. -/
def rpart (r : Rules) : List (String × Matcher) × Cache × List (Option String) × List Node :=
  (r.rs.lk.rules, r.rs.cache, r.ruleNames, r.rulesXml)

/-- The part about actions. -/
def apart (r : Rules) : List Action × List Node := (r.actions, r.actionsXml)

theorem parts_ext {r r' : Rules} (h1 : cpart r = cpart r') (h2 : rpart r = rpart r') (h3 : apart r = apart r') :
    r = r' := by
  rcases r with ⟨⟨⟨a, b⟩, c⟩, d, e, f, g, h, i⟩
  rcases r' with ⟨⟨⟨a', b'⟩, c'⟩, d', e', f', g', h', i'⟩
  simp only [cpart, rpart, apart, Prod.mk.injEq] at h1 h2 h3
  obtain ⟨rfl, rfl, rfl⟩ := h1
  obtain ⟨rfl, rfl, rfl, rfl⟩ := h2
  obtain ⟨rfl, rfl⟩ := h3
  rfl

/-- A class put into the lookup. -/
def put (cl : List (String × Cls)) (k : Cls) : List (String × Cls) :=
  match RuleState.clsName k with
  | none => cl
  | some n => dset cl n k

/-- A rule put into the lookup. -/
def putRule (rl : List (String × Matcher)) (nm : Option String) (m : Matcher) : List (String × Matcher) :=
  match nm with
  | none => rl
  | some n => dset rl n m

theorem addClass_iff {s s' : RuleState} {k : Cls} {f : Bool} : s.addClass k f = (s', .ok ()) ↔
    (Cls.validate s.lk.classes true k = .ok () ∨ f = true) ∧
      s' = { s with lk := { s.lk with classes := put s.lk.classes k } } := by
  unfold RuleState.addClass put
  rcases hv : Cls.validate s.lk.classes true k with e | u <;> cases f <;> cases hc : RuleState.clsName k <;>
    simp [eq_comm]
  all_goals exact ⟨Eq.symm, Eq.symm⟩

theorem addRule_iff {s s' : RuleState} {i : Nat} {nm br : Option String} {ms : List Matcher} {c : Count}
    {f : Bool} : s.addRule (.rule i nm br ms c) f = (s', .ok ()) ↔
    (Matcher.validate s.lk true (.rule i nm br ms c) = .ok () ∨ f = true) ∧
      s' = { s with lk := { s.lk with rules := putRule s.lk.rules nm (.rule i nm br ms c) } } := by
  unfold RuleState.addRule putRule
  rcases hv : Matcher.validate s.lk true (.rule i nm br ms c) with e | u <;> cases f <;> cases nm <;>
    simp [eq_comm]
  all_goals exact ⟨Eq.symm, Eq.symm⟩

theorem item_cls {s s' : Rules × RState} {n : Node} (hn : isCls n = true) :
    parseItem P s n = (s', .ok ()) ↔ ∃ k, parseClass n = .ok k ∧
      (Cls.validate s.1.rs.lk.classes true k = .ok () ∨ P.force = true) ∧
      cpart s'.1 = (put s.1.rs.lk.classes k, s.1.clsNames ++ [RuleState.clsName k], s.1.clsXml ++ [n]) ∧
      rpart s'.1 = rpart s.1 ∧ apart s'.1 = apart s.1 ∧ s'.2 = s.2 := by
  have hn' : n.tag = "class" ∨ (combOf n.tag).isSome := by simpa [isCls] using hn
  rw [parseItem, if_pos hn']
  cases hk : parseClass n with
  | error e => simp
  | ok k =>
    simp only [Except.ok.injEq, exists_eq_left']
    rcases ha : s.1.rs.addClass k P.force with ⟨rs, o⟩
    cases o with
    | error e =>
      simp only [Prod.mk.injEq, reduceCtorEq, and_false, false_iff]
      rintro ⟨h1, -⟩
      have := addClass_iff.2 ⟨h1, rfl⟩
      rw [ha] at this
      simp at this
    | ok u =>
      obtain ⟨h1, h2⟩ := addClass_iff.1 ha
      subst h2
      constructor
      · intro h
        simp only [Prod.mk.injEq, and_true] at h
        subst h
        exact ⟨h1, rfl, rfl, rfl, rfl⟩
      · rintro ⟨-, h2, h3, h4, h5⟩
        rw [Prod.mk.injEq]
        refine ⟨Prod.ext (parts_ext ?_ ?_ ?_) h5.symm, rfl⟩
        · rw [h2]; rfl
        · rw [h3]; rfl
        · rw [h4]; rfl

theorem item_rule {s s' : Rules × RState} {n : Node} (hn : isRule n = true) :
    parseItem P s n = (s', .ok ()) ↔ ∃ m κ, parseRuleElem s.2 n = (s'.2, .ok m) ∧
      (if P.udb then Matcher.precalculate P.db s.1.rs.lk P.fuel m s.1.rs.cache = (κ, .ok ())
        else κ = s.1.rs.cache) ∧
      (Matcher.validate s.1.rs.lk true m = .ok () ∨ P.force = true) ∧
      cpart s'.1 = cpart s.1 ∧
      rpart s'.1 = (putRule s.1.rs.lk.rules (dget n.attrs "name") m, κ,
        s.1.ruleNames ++ [dget n.attrs "name"], s.1.rulesXml ++ [n]) ∧
      apart s'.1 = apart s.1 := by
  have h1 : ¬ (n.tag = "class" ∨ (combOf n.tag).isSome) := by
    have := not_cls_of_rule hn
    simpa [isCls] using this
  have h2 : n.tag = "rule" := by simpa [isRule] using hn
  rw [parseItem, if_neg h1, if_pos h2]
  rcases hr : parseRuleElem s.2 n with ⟨t, o⟩
  cases o with
  | error e => simp
  | ok m =>
    have hm : ∃ i br ms, m = .rule i (dget n.attrs "name") br ms .none := by
      unfold parseRuleElem at hr
      split at hr
      · simp at hr
      · split at hr
        · simp at hr
        · simp only [Prod.mk.injEq, Except.ok.injEq] at hr
          exact ⟨_, _, _, hr.2.symm⟩
    obtain ⟨i, br, ms, rfl⟩ := hm
    have hadd : ∀ κ, (match (RuleState.addRule { s.1.rs with cache := κ }
          (.rule i (dget n.attrs "name") br ms .none) P.force : RuleState × Except Err Unit) with
        | (rs, .error e) => (({ s.1 with rs := rs }, t), (.error e : Except Err Unit))
        | (rs, .ok ()) =>
          (({ s.1 with rs := rs, ruleNames := s.1.ruleNames ++ [dget n.attrs "name"],
                       rulesXml := s.1.rulesXml ++ [n] }, t), .ok ())) = (s', .ok ()) ↔
        s'.2 = t ∧ (Matcher.validate s.1.rs.lk true (.rule i (dget n.attrs "name") br ms .none) = .ok () ∨
          P.force = true) ∧ cpart s'.1 = cpart s.1 ∧
          rpart s'.1 = (putRule s.1.rs.lk.rules (dget n.attrs "name") (.rule i (dget n.attrs "name") br ms .none), κ,
            s.1.ruleNames ++ [dget n.attrs "name"], s.1.rulesXml ++ [n]) ∧
          apart s'.1 = apart s.1 := by
      intro κ
      rcases ha : RuleState.addRule { s.1.rs with cache := κ } (.rule i (dget n.attrs "name") br ms .none)
        P.force with ⟨rs, o⟩
      cases o with
      | error e =>
        simp only [Prod.mk.injEq, reduceCtorEq, and_false, false_iff]
        rintro ⟨-, h1, -⟩
        have := (addRule_iff (s := { s.1.rs with cache := κ })).2 ⟨h1, rfl⟩
        rw [ha] at this
        simp at this
      | ok u =>
        obtain ⟨h1, h2⟩ := addRule_iff.1 ha
        subst h2
        constructor
        · intro h
          simp only [Prod.mk.injEq, and_true] at h
          subst h
          exact ⟨rfl, h1, rfl, rfl, rfl⟩
        · rintro ⟨h5, -, h2, h3, h4⟩
          rw [Prod.mk.injEq]
          refine ⟨Prod.ext (parts_ext ?_ ?_ ?_) h5.symm, rfl⟩
          · rw [h2]; rfl
          · rw [h3]; rfl
          · rw [h4]; rfl
    simp only [Prod.mk.injEq, Except.ok.injEq]
    rw [show (∃ m κ, (t = s'.2 ∧ Matcher.rule i (dget n.attrs "name") br ms .none = m) ∧
      (if P.udb = true then Matcher.precalculate P.db s.1.rs.lk P.fuel m s.1.rs.cache = (κ, .ok ())
        else κ = s.1.rs.cache) ∧
      (Matcher.validate s.1.rs.lk true m = .ok () ∨ P.force = true) ∧
      cpart s'.1 = cpart s.1 ∧
      rpart s'.1 = (putRule s.1.rs.lk.rules (dget n.attrs "name") m, κ,
        s.1.ruleNames ++ [dget n.attrs "name"], s.1.rulesXml ++ [n]) ∧
      apart s'.1 = apart s.1) ↔ ∃ κ, (if P.udb = true then
        Matcher.precalculate P.db s.1.rs.lk P.fuel (.rule i (dget n.attrs "name") br ms .none) s.1.rs.cache =
          (κ, .ok ()) else κ = s.1.rs.cache) ∧ s'.2 = t ∧
        (Matcher.validate s.1.rs.lk true (.rule i (dget n.attrs "name") br ms .none) = .ok () ∨
          P.force = true) ∧ cpart s'.1 = cpart s.1 ∧
          rpart s'.1 = (putRule s.1.rs.lk.rules (dget n.attrs "name") (.rule i (dget n.attrs "name") br ms .none), κ,
            s.1.ruleNames ++ [dget n.attrs "name"], s.1.rulesXml ++ [n]) ∧
          apart s'.1 = apart s.1 from by
        constructor
        · rintro ⟨_, κ, ⟨rfl, rfl⟩, h⟩
          exact ⟨κ, h.1, rfl, h.2⟩
        · rintro ⟨κ, h, rfl, h'⟩
          exact ⟨_, κ, ⟨rfl, rfl⟩, h, h'⟩]
    unfold RuleState.parseRule
    cases hu : P.udb with
    | false =>
      simp only [Bool.false_eq_true, if_false, exists_eq_left]
      exact hadd s.1.rs.cache
    | true =>
      simp only [if_true]
      rcases hp : Matcher.precalculate P.db s.1.rs.lk P.fuel (.rule i (dget n.attrs "name") br ms .none)
        s.1.rs.cache with ⟨κ, o⟩
      cases o with
      | error e => simp
      | ok u =>
        simp only [Prod.mk.injEq, and_true, exists_eq_left']
        exact hadd κ

theorem item_act {s s' : Rules × RState} {n : Node} (hn : isAct n = true) :
    parseItem P s n = (s', .ok ()) ↔ ∃ a, parseAction n = .ok a ∧
      cpart s'.1 = cpart s.1 ∧ rpart s'.1 = rpart s.1 ∧
      apart s'.1 = (s.1.actions ++ [a], s.1.actionsXml ++ [n]) ∧ s'.2 = s.2 := by
  have h1 : ¬ (n.tag = "class" ∨ (combOf n.tag).isSome) := by
    have := not_cls_of_act hn
    simpa [isCls] using this
  have h2 : n.tag ≠ "rule" := by
    have := not_rule_of_act hn
    simpa [isRule] using this
  have h3 : n.tag = "action" := by simpa [isAct] using hn
  rw [parseItem, if_neg h1, if_neg h2, if_pos h3]
  cases hk : parseAction n with
  | error e => simp
  | ok a =>
    simp only [Except.ok.injEq, exists_eq_left', Prod.mk.injEq, and_true]
    constructor
    · rintro rfl
      exact ⟨rfl, rfl, rfl, rfl⟩
    · rintro ⟨h1, h2, h3, h4⟩
      refine Prod.ext (parts_ext ?_ ?_ ?_) h4.symm
      · rw [h1]; rfl
      · rw [h2]; rfl
      · rw [h3]; rfl

theorem item_other {s : Rules × RState} {n : Node} (h1 : isCls n = false) (h2 : isRule n = false)
    (h3 : isAct n = false) : parseItem P s n = ((s.1, { s.2 with bad := true }), .ok ()) := by
  simp only [isCls, isRule, isAct, decide_eq_false_iff_not] at h1 h2 h3
  rw [parseItem, if_neg h1, if_neg h2, if_neg h3]

/-! ## The section -/

theorem forEach_cons {σ α : Type} {f : σ → α → σ × Except Err Unit} {s s' : σ} {a : α} {l : List α} :
    forEach f s (a :: l) = (s', .ok ()) ↔ ∃ s1, f s a = (s1, .ok ()) ∧ forEach f s1 l = (s', .ok ()) := by
  rw [forEach]
  rcases hf : f s a with ⟨s1, o⟩
  cases o with
  | error e => simp
  | ok u => simp

/-- The names given to the classes of the section. -/
def classNames (es : List Node) : List String := (es.filter isCls).filterMap (fun n => dget n.attrs "name")

/-- No class is defined twice, and none takes the place of a tag. -/
def Fresh (cl : List (String × Cls)) (es : List Node) : Prop :=
  (classNames es).Nodup ∧ ∀ n ∈ classNames es, dget cl n = none ∧ ∀ t, n ≠ Cls.tagPrefix ++ t

theorem classNames_cons (n : Node) (es : List Node) : classNames (n :: es) =
    if isCls n then (match dget n.attrs "name" with | none => classNames es | some c => c :: classNames es)
    else classNames es := by
  unfold classNames
  cases h : isCls n with
  | false => simp [List.filter_cons, h]
  | true =>
    simp only [List.filter_cons, h, if_true, List.filterMap_cons]
    cases dget n.attrs "name" <;> rfl

theorem classes_item {s s1 : Rules × RState} {n : Node} (h : parseItem P s n = (s1, .ok ())) :
    (isCls n = false → s1.1.rs.lk.classes = s.1.rs.lk.classes) ∧
    (isCls n = true → ∃ k, parseClass n = .ok k ∧ s1.1.rs.lk.classes = put s.1.rs.lk.classes k) := by
  cases hc : isCls n with
  | true =>
    refine ⟨by simp, fun _ => ?_⟩
    obtain ⟨k, hk, -, h1, -⟩ := (item_cls hc).1 h
    exact ⟨k, hk, congrArg Prod.fst h1⟩
  | false =>
    refine ⟨fun _ => ?_, by simp⟩
    cases hr : isRule n with
    | true =>
      obtain ⟨m, κ, -, -, -, h1, -⟩ := (item_rule hr).1 h
      exact congrArg Prod.fst h1
    | false =>
      cases ha : isAct n with
      | true =>
        obtain ⟨a, -, h1, -⟩ := (item_act ha).1 h
        exact congrArg Prod.fst h1
      | false =>
        rw [item_other hc hr ha, Prod.mk.injEq] at h
        rw [← h.1]

theorem ext_put {udb : Bool} {cl : List (String × Cls)} {k : Cls}
    (h : udb = true → ∀ c, RuleState.clsName k = some c → dget cl c = none ∧ ∀ t, c ≠ Cls.tagPrefix ++ t) :
    Ext udb cl (put cl k) := by
  unfold put
  cases hc : RuleState.clsName k with
  | none => exact Ext.refl _
  | some c =>
    refine ⟨fun n hn => ?_, fun hu => ⟨fun n d hd => ?_, fun t ht => ?_⟩⟩
    · rw [dget_dset]; split
      · rfl
      · exact hn
    · refine ⟨d, ?_, .inl rfl⟩
      rw [dget_dset, if_neg, hd]
      rintro rfl
      rw [(h hu c hc).1] at hd
      cases hd
    · rw [dget_dset, if_neg, ht]
      exact (h hu c hc).2 t

theorem ext_run : ∀ (es : List Node) {s s' : Rules × RState}, parseRules P s es = (s', .ok ()) →
    (P.udb = true → Fresh s.1.rs.lk.classes es) → Ext P.udb s.1.rs.lk.classes s'.1.rs.lk.classes ∧
      ∀ (n : Node) (r : List Node) (s1 : Rules × RState), es = n :: r → parseItem P s n = (s1, .ok ()) →
        P.udb = true → Fresh s1.1.rs.lk.classes r := by
  intro es
  induction es with
  | nil =>
    intro s s' h _
    simp only [parseRules, forEach, Prod.mk.injEq, and_true] at h
    rw [← h]
    exact ⟨Ext.refl _, by simp⟩
  | cons n es ih =>
    intro s s' h hf
    obtain ⟨s1, h1, h2⟩ := forEach_cons.1 h
    obtain ⟨c1, c2⟩ := classes_item h1
    have hf1 : P.udb = true → Fresh s1.1.rs.lk.classes es := by
      intro hu
      obtain ⟨g1, g2⟩ := hf hu
      rw [classNames_cons] at g1 g2
      cases hc : isCls n with
      | false =>
        simp only [hc, Bool.false_eq_true, if_false] at g1 g2
        rw [c1 hc]
        exact ⟨g1, g2⟩
      | true =>
        obtain ⟨k, hk, e⟩ := c2 hc
        simp only [hc, if_true] at g1 g2
        have hnm := parseClass_name hk
        rw [e, put, hnm]
        cases hd : dget n.attrs "name" with
        | none => rw [hd] at g1 g2; exact ⟨g1, g2⟩
        | some c =>
          rw [hd] at g1 g2
          rw [List.nodup_cons] at g1
          refine ⟨g1.2, fun m hm => ⟨?_, (g2 m (List.mem_cons_of_mem _ hm)).2⟩⟩
          rw [dget_dset, if_neg, (g2 m (List.mem_cons_of_mem _ hm)).1]
          rintro rfl
          exact g1.1 hm
    refine ⟨Ext.trans ?_ (ih h2 hf1).1, ?_⟩
    · cases hc : isCls n with
      | false => rw [c1 hc]; exact Ext.refl _
      | true =>
        obtain ⟨k, hk, e⟩ := c2 hc
        rw [e]
        refine ext_put (fun hu c hck => ?_)
        have g2 := (hf hu).2
        rw [classNames_cons] at g2
        rw [parseClass_name hk] at hck
        simp only [hc, if_true, hck] at g2
        exact g2 c List.mem_cons_self
    · intro n' r s1' e h1'
      cases e
      rw [h1] at h1'
      simp only [Prod.mk.injEq, and_true] at h1'
      subst h1'
      exact hf1

theorem xml_run : ∀ (es : List Node) {s s' : Rules × RState}, parseRules P s es = (s', .ok ()) →
    s'.1.clsXml = s.1.clsXml ++ es.filter isCls ∧ s'.1.rulesXml = s.1.rulesXml ++ es.filter isRule ∧
    s'.1.actionsXml = s.1.actionsXml ++ es.filter isAct ∧ (s'.2.bad = false → s.2.bad = false) := by
  intro es
  induction es with
  | nil =>
    intro s s' h
    simp only [parseRules, forEach, Prod.mk.injEq, and_true] at h
    rw [← h]
    simp
  | cons n es ih =>
    intro s s' h
    obtain ⟨s1, h1, h2⟩ := forEach_cons.1 h
    obtain ⟨i1, i2, i3, i4⟩ := ih h2
    rw [i1, i2, i3]
    cases hc : isCls n with
    | true =>
      have hr : isRule n = false := by
        rw [← Bool.not_eq_true]; intro hr; rw [not_cls_of_rule hr] at hc; cases hc
      have ha : isAct n = false := by
        rw [← Bool.not_eq_true]; intro hr; rw [not_cls_of_act hr] at hc; cases hc
      obtain ⟨k, -, -, e1, e2, e3, e4⟩ := (item_cls hc).1 h1
      simp only [cpart, rpart, apart, Prod.mk.injEq] at e1 e2 e3
      rw [e1.2.2, e2.2.2.2, e3.2]
      refine ⟨by simp [List.filter_cons, hc], by simp [List.filter_cons, hr], by simp [List.filter_cons, ha],
        fun hb => ?_⟩
      rw [← e4]; exact i4 hb
    | false =>
      cases hr : isRule n with
      | true =>
        have ha : isAct n = false := by
          rw [← Bool.not_eq_true]; intro ha; rw [not_rule_of_act ha] at hr; cases hr
        obtain ⟨m, κ, e0, -, -, e1, e2, e3⟩ := (item_rule hr).1 h1
        simp only [cpart, rpart, apart, Prod.mk.injEq] at e1 e2 e3
        rw [e1.2.2, e2.2.2.2, e3.2]
        refine ⟨by simp [List.filter_cons, hc], by simp [List.filter_cons, hr], by simp [List.filter_cons, ha],
          fun hb => ?_⟩
        have hb1 := i4 hb
        obtain ⟨j, w, o, hw⟩ := rule_bad n s.2.nextId
        rw [show s.2 = ⟨s.2.nextId, s.2.bad⟩ from rfl, hw, Prod.mk.injEq] at e0
        rw [← e0.1] at hb1
        simp only [Bool.or_eq_false_iff] at hb1
        exact hb1.1
      | false =>
        cases ha : isAct n with
        | true =>
          obtain ⟨a, -, e1, e2, e3, e4⟩ := (item_act ha).1 h1
          simp only [cpart, rpart, apart, Prod.mk.injEq] at e1 e2 e3
          rw [e1.2.2, e2.2.2.2, e3.2]
          refine ⟨by simp [List.filter_cons, hc], by simp [List.filter_cons, hr], by simp [List.filter_cons, ha],
            fun hb => ?_⟩
          rw [← e4]; exact i4 hb
        | false =>
          rw [item_other hc hr ha, Prod.mk.injEq] at h1
          obtain ⟨rfl, -⟩ := h1
          refine ⟨by simp [List.filter_cons, hc], by simp [List.filter_cons, hr], by simp [List.filter_cons, ha],
            fun hb => ?_⟩
          have := i4 hb
          simp at this

/-- A relation between lookups which is kept by adding a class. -/
structure Steady (R : List (String × Cls) → List (String × Cls) → Prop) : Prop where
  keys : ∀ {a b}, R a b → ∀ n, (dget a n).isSome = (dget b n).isSome
  put : ∀ {a b}, R a b → ∀ k, R (put a k) (put b k)

theorem steady_eq : Steady Eq := ⟨fun h _ => by rw [h], fun h _ => by rw [h]⟩

theorem steady_sim (udb : Bool) : Steady (Sim udb) := by
  refine ⟨fun h n => h.1 n, fun {a b} h k => ?_⟩
  unfold C101.put
  cases RuleState.clsName k with
  | none => exact h
  | some n =>
    refine ⟨fun m => ?_, fun hu m c hc => ?_⟩
    · rw [dget_dset, dget_dset]
      split
      · rfl
      · exact h.1 m
    · rw [dget_dset] at hc ⊢
      by_cases hm : n = m
      · rw [if_pos hm] at hc ⊢
        exact ⟨k, rfl, .inl (Option.some.inj hc).symm⟩
      · rw [if_neg hm] at hc ⊢
        exact h.2 hu m c hc

/-- The classes alone. -/
theorem pass_cls {R : List (String × Cls) → List (String × Cls) → Prop} (hR : Steady R) :
    ∀ (es : List Node) {s s' : Rules × RState}, parseRules P s es = (s', .ok ()) →
    ∀ t : Rules × RState, R s.1.rs.lk.classes t.1.rs.lk.classes → t.1.clsNames = s.1.clsNames →
    t.1.clsXml = s.1.clsXml →
    ∃ t', parseRules P t (es.filter isCls) = (t', .ok ()) ∧ R s'.1.rs.lk.classes t'.1.rs.lk.classes ∧
      t'.1.clsNames = s'.1.clsNames ∧ t'.1.clsXml = s'.1.clsXml ∧ rpart t'.1 = rpart t.1 ∧
      apart t'.1 = apart t.1 ∧ t'.2 = t.2 := by
  intro es
  induction es with
  | nil =>
    intro s s' h t ht hn hx
    simp only [parseRules, forEach, Prod.mk.injEq, and_true] at h
    rw [← h]
    exact ⟨t, rfl, ht, hn, hx, rfl, rfl, rfl⟩
  | cons n es ih =>
    intro s s' h t ht hn hx
    obtain ⟨s1, h1, h2⟩ := forEach_cons.1 h
    cases hc : isCls n with
    | true =>
      rw [List.filter_cons, hc, if_pos rfl]
      obtain ⟨k, hk, hv, e1, e2, e3, e4⟩ := (item_cls hc).1 h1
      simp only [cpart, Prod.mk.injEq] at e1
      let t1 : Rules × RState :=
        ({ t.1 with
            rs := { t.1.rs with lk := { t.1.rs.lk with classes := put t.1.rs.lk.classes k } },
            clsNames := t.1.clsNames ++ [RuleState.clsName k], clsXml := t.1.clsXml ++ [n] }, t.2)
      have hstep : parseItem P t n = (t1, .ok ()) := by
        rw [item_cls hc]
        refine ⟨k, hk, ?_, rfl, rfl, rfl, rfl⟩
        rcases hv with hv | hv
        · exact .inl (cls_validate_ext (fun n hn => hR.keys ht n ▸ hn) k true hv)
        · exact .inr hv
      obtain ⟨t', g1, g2, g3, g4, g5, g6, g7⟩ := ih h2 t1 (by rw [e1.1]; exact hR.put ht k)
        (by rw [e1.2.1, ← hn]) (by rw [e1.2.2, ← hx])
      exact ⟨t', forEach_cons.2 ⟨t1, hstep, g1⟩, g2, g3, g4, g5, g6, g7⟩
    | false =>
      rw [List.filter_cons, hc, if_neg (by simp)]
      have key : cpart s1.1 = cpart s.1 := by
        cases hr : isRule n with
        | true =>
          obtain ⟨m, κ, -, -, -, e1, -⟩ := (item_rule hr).1 h1
          exact e1
        | false =>
          cases ha : isAct n with
          | true =>
            obtain ⟨a, -, e1, -⟩ := (item_act ha).1 h1
            exact e1
          | false =>
            rw [item_other hc hr ha, Prod.mk.injEq] at h1
            rw [← h1.1]
      simp only [cpart, Prod.mk.injEq] at key
      exact ih h2 t (by rw [key.1]; exact ht) (by rw [key.2.1, hn]) (by rw [key.2.2, hx])

/-- The actions alone. -/
theorem pass_act : ∀ (es : List Node) {s s' : Rules × RState}, parseRules P s es = (s', .ok ()) →
    ∀ t : Rules × RState, apart t.1 = apart s.1 →
    ∃ t', parseRules P t (es.filter isAct) = (t', .ok ()) ∧ apart t'.1 = apart s'.1 ∧ rpart t'.1 = rpart t.1 ∧
      cpart t'.1 = cpart t.1 ∧ t'.2 = t.2 := by
  intro es
  induction es with
  | nil =>
    intro s s' h t ht
    simp only [parseRules, forEach, Prod.mk.injEq, and_true] at h
    exact ⟨t, rfl, by rw [ht, h], rfl, rfl, rfl⟩
  | cons n es ih =>
    intro s s' h t ht
    obtain ⟨s1, h1, h2⟩ := forEach_cons.1 h
    cases ha : isAct n with
    | true =>
      rw [List.filter_cons, ha, if_pos rfl]
      obtain ⟨a, hk, e1, e2, e3, e4⟩ := (item_act ha).1 h1
      have ht' := ht
      simp only [apart, Prod.mk.injEq] at ht'
      let t1 : Rules × RState :=
        ({ t.1 with actions := t.1.actions ++ [a], actionsXml := t.1.actionsXml ++ [n] }, t.2)
      have hstep : parseItem P t n = (t1, .ok ()) := by
        rw [item_act ha]
        exact ⟨a, hk, rfl, rfl, rfl, rfl⟩
      obtain ⟨t', g1, g2, g3, g4, g5⟩ := ih h2 t1 (by
        rw [e3]; simp only [apart, t1, ht'.1, ht'.2])
      exact ⟨t', forEach_cons.2 ⟨t1, hstep, g1⟩, g2, g3, g4, g5⟩
    | false =>
      rw [List.filter_cons, ha, if_neg (by simp)]
      refine ih h2 t (ht.trans ?_)
      cases hc : isCls n with
      | true =>
        obtain ⟨k, -, -, -, -, e3, -⟩ := (item_cls hc).1 h1
        exact e3.symm
      | false =>
        cases hr : isRule n with
        | true =>
          obtain ⟨m, κ, -, -, -, -, -, e3⟩ := (item_rule hr).1 h1
          exact e3.symm
        | false =>
          rw [item_other hc hr ha, Prod.mk.injEq] at h1
          rw [← h1.1]

/-- The rules alone, when the classes are there. -/
theorem pass_rule : ∀ (es : List Node) {s s' : Rules × RState}, parseRules P s es = (s', .ok ()) →
    (P.udb = true → Fresh s.1.rs.lk.classes es) →
    ∀ t : Rules × RState, rpart t.1 = rpart s.1 → t.2.nextId = s.2.nextId →
    Ext P.udb s'.1.rs.lk.classes t.1.rs.lk.classes →
    ∃ t', parseRules P t (es.filter isRule) = (t', .ok ()) ∧ rpart t'.1 = rpart s'.1 ∧ cpart t'.1 = cpart t.1 ∧
      apart t'.1 = apart t.1 ∧ t'.2.nextId = s'.2.nextId ∧ (s'.2.bad = false → t'.2.bad = t.2.bad) := by
  intro es
  induction es with
  | nil =>
    intro s s' h _ t ht hi _
    simp only [parseRules, forEach, Prod.mk.injEq, and_true] at h
    exact ⟨t, rfl, by rw [ht, h], rfl, rfl, by rw [hi, h], fun _ => rfl⟩
  | cons n es ih =>
    intro s s' h hf t ht hi hx
    obtain ⟨s1, h1, h2⟩ := forEach_cons.1 h
    obtain ⟨x1, x2⟩ := ext_run _ h hf
    have hf1 := x2 n es s1 rfl h1
    cases hr : isRule n with
    | true =>
      rw [List.filter_cons, hr, if_pos rfl]
      obtain ⟨m, κ, e0, hp, hv, e1, e2, e3⟩ := (item_rule hr).1 h1
      have ht' := ht
      simp only [rpart, Prod.mk.injEq] at ht'
      obtain ⟨t1', t2', t3', t4'⟩ := ht'
      have hx0 := x1.trans hx
      obtain ⟨j, w, o, hw⟩ := rule_bad n s.2.nextId
      have hw1 := hw s.2.bad
      rw [e0, Prod.mk.injEq] at hw1
      have hw2 := hw t.2.bad
      rw [← hi] at hw2
      let t1 : Rules × RState :=
        ({ t.1 with
            rs := { lk := { t.1.rs.lk with rules := putRule t.1.rs.lk.rules (dget n.attrs "name") m }, cache := κ }
            ruleNames := t.1.ruleNames ++ [dget n.attrs "name"], rulesXml := t.1.rulesXml ++ [n] },
          ⟨j, t.2.bad || w⟩)
      have hstep : parseItem P t n = (t1, .ok ()) := by
        rw [item_rule hr]
        refine ⟨m, κ, hw2.trans (by rw [← hw1.2]), ?_, ?_, rfl, rfl, rfl⟩
        · cases hu : P.udb with
          | false =>
            simp only [hu, Bool.false_eq_true, if_false] at hp ⊢
            rw [hp, t2']
          | true =>
            simp only [hu, if_true] at hp ⊢
            rw [t2']
            rw [hu] at hx0
            exact precalculate_ext t1' hx0 hp
        · rcases hv with hv | hv
          · exact .inl (validate_ext t1' hx0.1 m true hv)
          · exact .inr hv
      obtain ⟨t', g1, g2, g3, g4, g5, g6⟩ := ih h2 hf1 t1 (by
        rw [e2]; simp only [rpart, t1, t1', t3', t4']) (by rw [hw1.1]) (by
        exact hx)
      refine ⟨t', forEach_cons.2 ⟨t1, hstep, g1⟩, g2, g3, g4, g5, fun hb => ?_⟩
      rw [g6 hb]
      have hb1 := (xml_run _ h2).2.2.2 hb
      rw [hw1.1] at hb1
      simp only [Bool.or_eq_false_iff] at hb1
      simp [t1, hb1.2]
    | false =>
      rw [List.filter_cons, hr, if_neg (by simp)]
      have hrp : rpart s1.1 = rpart s.1 ∧ s1.2.nextId = s.2.nextId := by
        cases hc : isCls n with
        | true =>
          obtain ⟨k, -, -, -, e2, -, e4⟩ := (item_cls hc).1 h1
          exact ⟨e2, by rw [e4]⟩
        | false =>
          cases ha : isAct n with
          | true =>
            obtain ⟨a, -, -, e2, -, e4⟩ := (item_act ha).1 h1
            exact ⟨e2, by rw [e4]⟩
          | false =>
            rw [item_other hc hr ha, Prod.mk.injEq] at h1
            rw [← h1.1]
            exact ⟨rfl, rfl⟩
      exact ih h2 hf1 t (ht.trans hrp.1.symm) (hi.trans hrp.2.symm) hx

/-! ## Writing and reading again -/

/-- **C101**, with other lists of the code points of the tags: what is read from the section which is written is
what was there. -/
theorem rules_reread {R : List (String × Cls) → List (String × Cls) → Prop} (hR : Steady R)
    (hE : ∀ {a b}, R a b → Ext P.udb a b) {s s' : Rules × RState} {es : List Node}
    (h0 : s.1.clsXml = [] ∧ s.1.rulesXml = [] ∧ s.1.actionsXml = [])
    (h : parseRules P s es = (s', .ok ())) (hf : P.udb = true → Fresh s.1.rs.lk.classes es)
    {t : Rules × RState} (ht : R s.1.rs.lk.classes t.1.rs.lk.classes) (hn : t.1.clsNames = s.1.clsNames)
    (hx : t.1.clsXml = s.1.clsXml) (hr : rpart t.1 = rpart s.1) (ha : apart t.1 = apart s.1)
    (hi : t.2.nextId = s.2.nextId) :
    serializeRules s'.1 = es.filter isCls ++ es.filter isRule ++ es.filter isAct ∧
    ∃ t', parseRules P t (serializeRules s'.1) = (t', .ok ()) ∧ R s'.1.rs.lk.classes t'.1.rs.lk.classes ∧
      t'.1.clsNames = s'.1.clsNames ∧ t'.1.clsXml = s'.1.clsXml ∧ rpart t'.1 = rpart s'.1 ∧
      apart t'.1 = apart s'.1 ∧ t'.2.nextId = s'.2.nextId ∧ (s'.2.bad = false → t'.2.bad = t.2.bad) := by
  obtain ⟨x1, x2, x3, -⟩ := xml_run es h
  have hser : serializeRules s'.1 = es.filter isCls ++ es.filter isRule ++ es.filter isAct := by
    rw [serializeRules, x1, x2, x3, h0.1, h0.2.1, h0.2.2]
    simp
  refine ⟨hser, ?_⟩
  obtain ⟨t1, a1, a2, a3, a4, a5, a6, a7⟩ := pass_cls hR es h t ht hn hx
  obtain ⟨t2, b1, b2, b3, b4, b5, b6⟩ := pass_rule es h hf t1 (a5.trans hr) (by rw [a7, hi]) (hE a2)
  obtain ⟨t3, c1, c2, c3, c4, c5⟩ := pass_act es h t2 (by rw [b4, a6, ha])
  simp only [cpart, Prod.mk.injEq] at b3 c4
  refine ⟨t3, ?_, ?_, ?_, ?_, ?_, c2, by rw [c5, b5], fun hb => ?_⟩
  · rw [hser]
    exact (C99.forEach_app _ ((C99.forEach_app _ a1).trans b1)).trans c1
  · rw [c4.1, b3.1]; exact a2
  · rw [c4.2.1, b3.2.1, a3]
  · rw [c4.2.2, b3.2.2, a4]
  · rw [c3, b2]
  · rw [c5, b6 hb, a7]

/-- **C101** (partial) Whatever the elements of a `<rules>` section and their order, if the section is parsed
without exception, the section written has the same classes, rules and actions, in this order and each kind
in its order; it is parsed without exception, and the classes, rules, patterns and actions of the LGR are
the same, with no further unhandled element. Missing: a parser with a Unicode database makes the patterns
of rules while reading; a class which is defined again later, which `Fresh` excludes, changes them
(`redefined_class_wrong`); and rules which were not read from a document (`added_rule_wrong`). -/
theorem rules_round_trip_partial {s s' : Rules × RState} {es : List Node}
    (h0 : s.1.clsXml = [] ∧ s.1.rulesXml = [] ∧ s.1.actionsXml = [])
    (h : parseRules P s es = (s', .ok ())) (hf : P.udb = true → Fresh s.1.rs.lk.classes es) :
    serializeRules s'.1 = es.filter isCls ++ es.filter isRule ++ es.filter isAct ∧
    ∃ t, parseRules P s (serializeRules s'.1) = (t, .ok ()) ∧ t.1 = s'.1 ∧ t.2.nextId = s'.2.nextId ∧
      (s'.2.bad = false → t.2.bad = s.2.bad) := by
  obtain ⟨h1, t, h2, h3, h4, h5, h6, h7, h8, h9⟩ := rules_reread steady_eq
    (fun {a b} e => by rw [e]; exact Ext.refl _) h0 h hf rfl rfl rfl rfl rfl rfl
  exact ⟨h1, t, h2, parts_ext (by simp only [cpart, h3, h4, h5]) h6 h7, h8, h9⟩

end Lgr.Props.C101
