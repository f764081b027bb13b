import Verif.VariantSets
import Verif.Props.LgrState
import Mathlib.Data.Finset.Card

/-!
# C09: variant sets are the reachability classes
-/

namespace Lgr.Props.C09
open Lgr Repertoire

/-- `b` is a variant of the entry `a`; unless `force`, only if it is in the repertoire itself. -/
def Edge (r : Repertoire) (force : Bool) (a b : Seq) : Prop :=
  (∃ c, r.lookup a = some c ∧ ∃ v ∈ c.getVariants, v.cp = b) ∧ (force = true ∨ (r.lookup b).isSome = true)

/-- `b` can be reached from `a` through variant mappings. -/
abbrev Reach (r : Repertoire) (force : Bool) : Seq → Seq → Prop := Relation.ReflTransGen (Edge r force)

/-- What `dfs` may be called on: an entry, or a code point without entry and without variants. -/
def Node (r : Repertoire) (c : CharObj) : Prop :=
  r.lookup c.cp = some c ∨ (r.lookup c.cp = none ∧ c.getVariants = [])

/-- All code points mentioned. -/
def univ (r : Repertoire) : Finset Seq :=
  (r.allChars.flatMap (fun c => c.cp :: c.getVariants.map Variant.cp)).toFinset

theorem univ_card (r : Repertoire) : (univ r).card ≤ r.dfsFuel := by
  refine (List.toFinset_card_le _).trans ?_
  rw [List.length_flatMap]
  unfold dfsFuel
  apply le_of_eq
  congr 1
  apply List.map_congr_left
  intro c _
  simp [Nat.add_comm]

theorem lookup_allChars {r : Repertoire} (h : WF r) {k : Seq} {c : CharObj} (hl : r.lookup k = some c) :
    c ∈ r.allChars := by
  obtain ⟨i, t, _, hm, _⟩ := (lookup_eq_some h).1 hl
  obtain ⟨p, hp, _, hc⟩ := bucket_mem hm
  exact List.mem_flatMap.2 ⟨p, hp, hc⟩

theorem node_edge {r : Repertoire} {force : Bool} {c : CharObj} (hc : Node r c) {b : Seq} :
    Edge r force c.cp b ↔ b ∈ c.getVariants.map Variant.cp ∧ (force = true ∨ (r.lookup b).isSome = true) := by
  unfold Edge
  rcases hc with hc | ⟨hc, hv⟩
  · simp [hc]
  · simp [hc, hv]

/-- What a call of `dfs` does to the visited set. -/
structure Spec (r : Repertoire) (force : Bool) (c : CharObj) (V V' : List Seq) : Prop where
  keep : ∀ a ∈ V, a ∈ V'
  self : c.cp ∈ V'
  reach : ∀ a ∈ V', a ∈ V ∨ Reach r force c.cp a
  closed : ∀ a ∈ V', a ∈ V ∨ ∀ b, Edge r force a b → b ∈ V'

theorem dfs_spec {r : Repertoire} (h : WF r) (force : Bool) (fuel : Nat) (V : List Seq) (c : CharObj)
    (hc : Node r c) (hu : c.cp ∈ univ r) (hV : c.cp ∉ V)
    (hf : (univ r \ V.toFinset).card ≤ fuel) : Spec r force c V (r.dfs force fuel V c) := by
  induction fuel generalizing V c with
  | zero =>
    exfalso
    have : c.cp ∈ univ r \ V.toFinset := by simp [hu, hV]
    rw [Finset.card_eq_zero.1 (Nat.le_zero.1 hf)] at this
    simp at this
  | succ n ih =>
    -- the state of the loop after some of the variants
    have loop : ∀ (vs : List Seq) (vis : List Seq),
        (∀ v ∈ vs, v ∈ c.getVariants.map Variant.cp) →
        (∀ a ∈ V, a ∈ vis) → c.cp ∈ vis →
        (∀ a ∈ vis, a ∈ V ∨ Reach r force c.cp a) →
        (∀ a ∈ vis, a ∈ V ∨ a = c.cp ∨ ∀ b, Edge r force a b → b ∈ vis) →
        let out := vs.foldl (fun vis v =>
          if v ∈ vis then vis
          else
            match r.getChar v with
            | .error _ => if force then dfs r force n vis { cp := v } else vis
            | .ok d => dfs r force n vis d) vis
        (∀ a ∈ vis, a ∈ out) ∧ (∀ a ∈ out, a ∈ V ∨ Reach r force c.cp a) ∧
        (∀ a ∈ out, a ∈ V ∨ a = c.cp ∨ ∀ b, Edge r force a b → b ∈ out) ∧
        (∀ v ∈ vs, (force = true ∨ (r.lookup v).isSome = true) → v ∈ out) := by
      intro vs
      induction vs with
      | nil => intro vis _ h1 h2 h3 h4; exact ⟨fun a ha => ha, h3, h4, by simp⟩
      | cons v vs ihv =>
        intro vis hvs h1 h2 h3 h4
        simp only [List.foldl_cons]
        -- one step
        obtain ⟨vis', hstep, k1, k3, k4, k5⟩ : ∃ vis', (if v ∈ vis then vis
            else
              match r.getChar v with
              | .error _ => if force then dfs r force n vis { cp := v } else vis
              | .ok d => dfs r force n vis d) = vis' ∧ (∀ a ∈ vis, a ∈ vis') ∧
            (∀ a ∈ vis', a ∈ V ∨ Reach r force c.cp a) ∧
            (∀ a ∈ vis', a ∈ V ∨ a = c.cp ∨ ∀ b, Edge r force a b → b ∈ vis') ∧
            ((force = true ∨ (r.lookup v).isSome = true) → v ∈ vis') := by
          by_cases hv : v ∈ vis
          · exact ⟨vis, by rw [if_pos hv], fun a ha => ha, h3, h4, fun _ => hv⟩
          · rw [if_neg hv]
            have hvu : v ∈ univ r := by
              rcases hc with hc | ⟨_, hn⟩
              · unfold univ
                rw [List.mem_toFinset, List.mem_flatMap]
                exact ⟨c, lookup_allChars h hc, List.mem_cons_of_mem _ (hvs v (by simp))⟩
              · have := hvs v (by simp)
                rw [hn] at this; simp at this
            have hfuel : (univ r \ vis.toFinset).card ≤ n := by
              have : (univ r \ vis.toFinset) ⊂ (univ r \ V.toFinset) := by
                refine ⟨?_, ?_⟩
                · intro a ha
                  simp only [Finset.mem_sdiff, List.mem_toFinset] at ha ⊢
                  exact ⟨ha.1, fun hV => ha.2 (h1 a hV)⟩
                · intro hsub
                  have hc0 : c.cp ∈ univ r \ V.toFinset := by simp [hu, hV]
                  have := hsub hc0
                  simp [h2] at this
              have := Finset.card_lt_card this
              omega
            have hrec : ∀ d : CharObj, d.cp = v → Node r d →
                (force = true ∨ (r.lookup v).isSome = true) →
                (∀ a ∈ vis, a ∈ dfs r force n vis d) ∧
                (∀ a ∈ dfs r force n vis d, a ∈ V ∨ Reach r force c.cp a) ∧
                (∀ a ∈ dfs r force n vis d, a ∈ V ∨ a = c.cp ∨
                  ∀ b, Edge r force a b → b ∈ dfs r force n vis d) ∧ v ∈ dfs r force n vis d := by
              intro d hd hnode hin
              subst hd
              have hs := ih vis d hnode hvu hv hfuel
              have hedge : Edge r force c.cp d.cp := (node_edge hc).2 ⟨hvs _ (by simp), hin⟩
              refine ⟨hs.keep, ?_, ?_, hs.self⟩
              · intro a ha
                rcases hs.reach a ha with h5 | h5
                · exact h3 a h5
                · exact .inr (Relation.ReflTransGen.head hedge h5)
              · intro a ha
                rcases hs.closed a ha with h5 | h5
                · rcases h4 a h5 with h6 | h6 | h6
                  · exact .inl h6
                  · exact .inr (.inl h6)
                  · exact .inr (.inr fun b hb => hs.keep b (h6 b hb))
                · exact .inr (.inr h5)
            cases hg : r.getChar v with
            | ok d =>
              have hl := getChar_ok.1 hg
              have hcp := lookup_cp hl
              obtain ⟨a1, a2, a3, a4⟩ := hrec d hcp (.inl (by rw [hcp]; exact hl))
                (.inr (by rw [hl]; rfl))
              exact ⟨_, rfl, a1, a2, a3, fun _ => a4⟩
            | error e =>
              have hnone : r.lookup v = none := by
                cases hl : r.lookup v with
                | none => rfl
                | some d => rw [getChar_ok.2 hl] at hg; simp at hg
              cases force with
              | true =>
                obtain ⟨a1, a2, a3, a4⟩ := hrec { cp := v } rfl (.inr ⟨hnone, rfl⟩) (.inl rfl)
                exact ⟨_, rfl, a1, a2, a3, fun _ => a4⟩
              | false =>
                refine ⟨vis, by simp, fun a ha => ha, h3, h4, ?_⟩
                rintro (h0 | h0)
                · simp at h0
                · rw [hnone] at h0; simp at h0
        rw [hstep]
        obtain ⟨b1, b2, b3, b4⟩ := ihv vis' (fun w hw => hvs w (by simp [hw]))
          (fun a ha => k1 a (h1 a ha)) (k1 _ h2) k3 k4
        refine ⟨fun a ha => b1 a (k1 a ha), b2, b3, ?_⟩
        intro w hw hin
        rcases List.mem_cons.1 hw with rfl | hw
        · exact b1 _ (k5 hin)
        · exact b4 w hw hin
    obtain ⟨c1, c2, c3, c4⟩ := loop (c.getVariants.map Variant.cp) (c.cp :: V) (fun v hv => hv)
      (fun a ha => by simp [ha]) (by simp)
      (by
        intro a ha
        rcases List.mem_cons.1 ha with rfl | ha
        · exact .inr .refl
        · exact .inl ha)
      (by
        intro a ha
        rcases List.mem_cons.1 ha with rfl | ha
        · exact .inr (.inl rfl)
        · exact .inl ha)
    refine ⟨fun a ha => c1 a (by simp [ha]), c1 _ (by simp), c2, ?_⟩
    intro a ha
    rcases c3 a ha with h6 | h6 | h6
    · exact .inl h6
    · right
      intro b hb
      subst h6
      obtain ⟨h7, h8⟩ := (node_edge hc).1 hb
      exact c4 b h7 h8
    · exact .inr h6

/-- Depth-first search finds exactly what is reachable. -/
theorem dfs_reach {r : Repertoire} (h : WF r) (force : Bool) {c : CharObj}
    (hc : r.lookup c.cp = some c) (a : Seq) :
    a ∈ r.dfs force r.dfsFuel [] c ↔ Reach r force c.cp a := by
  have hu : c.cp ∈ univ r := by
    unfold univ
    rw [List.mem_toFinset, List.mem_flatMap]
    exact ⟨c, lookup_allChars h hc, by simp⟩
  have hs := dfs_spec h force r.dfsFuel [] c (.inl hc) hu (by simp)
    (by simpa using univ_card r)
  constructor
  · intro ha
    rcases hs.reach a ha with h1 | h1
    · simp at h1
    · exact h1
  · intro ha
    induction ha with
    | refl => exact hs.self
    | tail _ hbc ih =>
      rcases hs.closed _ ih with h1 | h1
      · simp at h1
      · exact h1 _ hbc

/-- `s` lists a set of sequences in increasing order. -/
def Lists (s : List Seq) (P : Seq → Prop) : Prop := s.Pairwise (· < ·) ∧ ∀ a, a ∈ s ↔ P a

theorem lists_unique {s t : List Seq} {P : Seq → Prop} (hs : Lists s P) (ht : Lists t P) : s = t := by
  refine List.Perm.eq_of_pairwise (le := (· < ·)) ?_ hs.1 ht.1 ?_
  · intro a b _ _ h1 h2; exact absurd h2 (lt_asymm h1)
  · rw [List.perm_ext_iff_of_nodup (hs.1.imp ne_of_lt) (ht.1.imp ne_of_lt)]
    intro a; rw [hs.2, ht.2]

theorem variantSet_lists {r : Repertoire} (h : WF r) (force : Bool) {c : CharObj}
    (hc : r.lookup c.cp = some c) : Lists (r.variantSet force c) (Reach r force c.cp) := by
  refine ⟨?_, ?_⟩
  · have h1 := sortAsc_sorted id (r.dfs force r.dfsFuel [] c).dedup
    have h2 : (sortAsc id (r.dfs force r.dfsFuel [] c).dedup).Nodup :=
      (sortAsc_perm id _).nodup_iff.2 (List.nodup_dedup _)
    exact (h1.and h2).imp fun {a b} hab => lt_of_le_of_ne hab.1 hab.2
  · intro a
    unfold variantSet
    rw [mem_sortAsc, List.mem_dedup, dfs_reach h force hc]

theorem pyMin_head {s : List Seq} (hs : s.Pairwise (· < ·)) : pyMinSeq s = s.headD [] := by
  cases s with
  | nil => rfl
  | cons a s =>
    unfold pyMinSeq
    simp only [List.headD_cons, List.foldl_cons, min_self]
    rw [List.pairwise_cons] at hs
    have : ∀ l : List Seq, (∀ b ∈ l, a < b) → l.foldl min a = a := by
      intro l
      induction l with
      | nil => intro _; rfl
      | cons b l ih =>
        intro hl
        rw [List.foldl_cons, min_eq_left (le_of_lt (hl b (by simp)))]
        exact ih fun c hc => hl c (by simp [hc])
    exact this s hs.1

theorem head_le {s t : List Seq} (hst : s < t) (ht : s ≠ []) : s.headD [] ≤ t.headD [] := by
  cases s with
  | nil => exact absurd rfl ht
  | cons a s =>
    cases t with
    | nil => simp at hst
    | cons b t =>
      rcases List.cons_lt_cons_iff.1 hst with h | h
      · exact le_of_lt h
      · exact le_of_eq h.1

/-- **C09** `get_variant_sets` returns, in increasing order and without duplicates, exactly the sets
with at least two members of the form "what can be reached from an entry through variant mappings
(into the repertoire, unless `force`)", each listed in increasing order. -/
theorem variant_sets_exact {r : Repertoire} (h : WF r) (force : Bool) :
    (r.getVariantSets force).Pairwise (· < ·) ∧
    ∀ s, s ∈ r.getVariantSets force ↔
      2 ≤ s.length ∧ ∃ k c, r.lookup k = some c ∧ Lists s (Reach r force k) := by
  -- the set of pairs
  set sets := (sortAsc id (r.dict.map Prod.fst)).flatMap (fun i => (r.bucket i).filterMap (fun c =>
    let s := r.variantSet force c
    if 1 < s.length then some (pyMinSeq s, s) else none)) with hsets
  have hmem : ∀ p, p ∈ sets ↔ p.1 = p.2.headD [] ∧ 2 ≤ p.2.length ∧
      ∃ k c, r.lookup k = some c ∧ Lists p.2 (Reach r force k) := by
    intro p
    rw [hsets, List.mem_flatMap]
    constructor
    · rintro ⟨i, hi, hp⟩
      obtain ⟨c, hc, hp⟩ := List.mem_filterMap.1 hp
      simp only at hp
      split at hp
      · rename_i hlen
        cases hp
        have hl : r.lookup c.cp = some c := by
          obtain ⟨q, hq, hqi, hcq⟩ := bucket_mem hc
          obtain ⟨t, ht⟩ := h.filed q hq c hcq
          exact (lookup_eq_some h).2 ⟨i, t, by rw [ht, hqi], hc, rfl⟩
        have hv := variantSet_lists h force hl
        exact ⟨pyMin_head hv.1, hlen, c.cp, c, hl, hv⟩
      · simp at hp
    · rintro ⟨h1, h2, k, c, hl, hv⟩
      have hcp := lookup_cp hl
      subst hcp
      have hv' := variantSet_lists h force hl
      have he := lists_unique hv hv'
      obtain ⟨i, t, hk, hb, _⟩ := (lookup_eq_some h).1 hl
      refine ⟨i, ?_, ?_⟩
      · rw [mem_sortAsc]
        obtain ⟨q, hq, hqi, hcq⟩ := bucket_mem hb
        exact List.mem_map.2 ⟨q, hq, hqi⟩
      · rw [List.mem_filterMap]
        refine ⟨c, hb, ?_⟩
        simp only
        rw [← he, if_pos (by omega), pyMin_head hv.1, ← h1]
  have hout : r.getVariantSets force = (sortAsc (fun p => toLex p) sets.dedup).map Prod.snd := rfl
  have hm' : ∀ p, p ∈ sortAsc (fun p => toLex p) sets.dedup ↔ p ∈ sets := by
    intro p; rw [mem_sortAsc, List.mem_dedup]
  rw [hout]
  refine ⟨?_, ?_⟩
  · rw [List.pairwise_map]
    have h1 := sortAsc_sorted (fun p : Seq × List Seq => toLex p) sets.dedup
    have h2 : (sortAsc (fun p : Seq × List Seq => toLex p) sets.dedup).Nodup :=
      (sortAsc_perm _ _).nodup_iff.2 (List.nodup_dedup _)
    refine (h1.and h2).imp_of_mem ?_
    rintro ⟨a1, a2⟩ ⟨b1, b2⟩ ha hb ⟨hle, hne⟩
    have ha' := (hmem _).1 ((hm' _).1 ha)
    have hb' := (hmem _).1 ((hm' _).1 hb)
    simp only at ha' hb'
    rcases Prod.Lex.toLex_le_toLex.1 hle with h3 | ⟨h3, h4⟩
    · simp only at h3
      rcases lt_trichotomy a2 b2 with h5 | h5 | h5
      · exact h5
      · subst h5; rw [ha'.1, hb'.1] at h3; exact absurd h3 (lt_irrefl _)
      · exfalso
        have := head_le h5 (by intro h0; rw [h0] at hb'; simp at hb')
        rw [← ha'.1, ← hb'.1] at this
        exact absurd h3 (not_lt.2 this)
    · simp only at h3 h4
      refine lt_of_le_of_ne h4 ?_
      intro h5; exact hne (Prod.ext h3 h5)
  · intro s
    rw [List.mem_map]
    constructor
    · rintro ⟨p, hp, rfl⟩
      exact ((hmem p).1 ((hm' p).1 hp)).2
    · intro hs
      exact ⟨(s.headD [], s), (hm' _).2 ((hmem _).2 ⟨rfl, hs⟩), rfl⟩

/-- **C09** When variant mappings are symmetric, different variant sets are disjoint. -/
theorem variant_sets_disjoint {r : Repertoire} (h : WF r) (force : Bool)
    (hsym : ∀ a b, Edge r force a b → Edge r force b a) {s t : List Seq}
    (hs : s ∈ r.getVariantSets force) (ht : t ∈ r.getVariantSets force) (hne : s ≠ t) :
    ∀ a ∈ s, a ∉ t := by
  obtain ⟨-, k, _, -, hk⟩ := (variant_sets_exact h force).2 s |>.1 hs
  obtain ⟨-, k', _, -, hk'⟩ := (variant_sets_exact h force).2 t |>.1 ht
  intro a h1 h2
  apply hne
  have hs' : ∀ x y, Reach r force x y → Reach r force y x := by
    intro x y hxy
    induction hxy with
    | refl => exact .refl
    | tail _ hbc ih => exact Relation.ReflTransGen.head (hsym _ _ hbc) ih
  refine lists_unique hk ⟨hk'.1, fun b => ?_⟩
  rw [hk'.2]
  have e1 := (hk.2 a).1 h1
  have e2 := (hk'.2 a).1 h2
  constructor
  · intro h3; exact (e1.trans (hs' _ _ e2)).trans h3
  · intro h3; exact (e2.trans (hs' _ _ e1)).trans h3

/-- Two variant sets; `1` is not in the repertoire, `2` and `3` map to each other, `9` and `8 8` lead
to `7`. -/
def sample : List (LGR.Ctx × LGR.Op) :=
  let ctx : LGR.Ctx := { db := none, valid := fun _ => true, pyInt := fun _ => none }
  [(ctx, .addCodepoints [7, 9, 2] {}), (ctx, .addCp (.int 3) {}), (ctx, .addCp (.seq [8, 8]) {}),
   (ctx, .addVariant (.int 2) (.int 3) none {}), (ctx, .addVariant (.int 3) (.int 2) none {}),
   (ctx, .addVariant (.int 2) (.int 1) none {}), (ctx, .addVariant (.seq [8, 8]) (.int 7) none {}),
   (ctx, .addVariant (.int 9) (.seq [8, 8]) none {})]

example : WF (LGR.run {} sample).rep := (run_wf sample).1
example : (LGR.run {} sample).rep.getVariantSets false =
    [[[2], [3]], [[7], [8, 8]], [[7], [8, 8], [9]]] := by decide +kernel
example : (LGR.run {} sample).rep.getVariantSets true =
    [[[1], [2], [3]], [[7], [8, 8]], [[7], [8, 8], [9]]] := by decide +kernel

end Lgr.Props.C09
