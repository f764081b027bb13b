import Verif.AllTags
import Verif.Props.LgrTags

/-!
# C146: the tags which an LGR lists
-/

namespace Lgr.Props.C146
open Lgr AllTags LGR

theorem tagOf_prefix (t : String) : tagOf (Cls.tagPrefix ++ t) = some t := by
  unfold tagOf
  rw [String.toList_append, if_pos (by simp), List.drop_left]
  simp

theorem tagOf_some {n t : String} (h : tagOf n = some t) : n = Cls.tagPrefix ++ t := by
  unfold tagOf at h
  split at h
  · rename_i hp
    obtain ⟨u, hu⟩ := List.isPrefixOf_iff_prefix.1 hp
    simp only [Option.some.injEq] at h
    subst h
    rw [← hu, List.drop_left]
    apply String.toList_injective
    simp [hu]
  · cases h

/-- The tags listed, among the classes of an LGR and others. -/
def Listed (g : LGR) (others : List String) : List String := allTags ((lookupOf g).map Prod.fst ++ others)

/-- The names of classes are not the ones of tag classes. -/
def Named (others : List String) : Prop := ∀ n ∈ others, ∀ t, n ≠ Cls.tagPrefix ++ t

theorem listed_eq (g : LGR) {others : List String} (ho : Named others) : Listed g others = g.tagCls.map Prod.fst := by
  unfold Listed allTags lookupOf
  have h1 : others.filterMap tagOf = [] := by
    rw [List.filterMap_eq_nil_iff]
    intro n hn
    cases h : tagOf n with
    | none => rfl
    | some t => exact absurd (tagOf_some h) (ho n hn t)
  rw [List.filterMap_append, h1, List.append_nil]
  induction g.tagCls with
  | nil => rfl
  | cons p l ih =>
    rw [List.map_cons, List.map_cons, List.filterMap_cons]
    simp only [tagOf_prefix, List.map_cons, List.cons.injEq, true_and]
    exact ih

/-! ## Keys -/

/-- A call which gives the tags in `T` and takes none away. -/
def Keeps (T : List String) (c c' : List (String × List Nat)) : Prop :=
  (∀ t ∈ c.map Prod.fst, t ∈ c'.map Prod.fst) ∧ ∀ t ∈ c'.map Prod.fst, t ∈ c.map Prod.fst ∨ t ∈ T

theorem Keeps.refl (T : List String) (c : List (String × List Nat)) : Keeps T c c := ⟨fun _ h => h, fun _ h => .inl h⟩

theorem Keeps.trans {T : List String} {a b c : List (String × List Nat)} (h : Keeps T a b) (h' : Keeps T b c) : Keeps T a c :=
  ⟨fun t ht => h'.1 t (h.1 t ht), fun t ht => (h'.2 t ht).elim (fun x => h.2 t x) .inr⟩

theorem keeps_dset {T : List String} {c : List (String × List Nat)} {t : String} (ht : t ∈ c.map Prod.fst ∨ t ∈ T) (v : List Nat) :
    Keeps T c (dset c t v) := by
  constructor
  · intro u hu
    rw [← dget_isSome] at hu ⊢
    rw [dget_dset]; split <;> simp [hu]
  · intro u hu
    rw [← dget_isSome, dget_dset] at hu
    split at hu
    · rename_i h; subst h; exact ht
    · exact .inl (dget_isSome.1 hu)

theorem keeps_addToTags {T tags : List String} (hT : ∀ t ∈ tags, t ∈ T) (c : List (String × List Nat)) (s : Seq) :
    Keeps T c (addToTags c s tags) := by
  unfold addToTags
  induction tags generalizing c with
  | nil => exact .refl _ _
  | cons t tags ih =>
    exact (keeps_dset (.inr (hT t (by simp))) _).trans (ih (fun u hu => hT u (List.mem_cons_of_mem _ hu)) _)

theorem keeps_delFromTags (T tags : List String) (c : List (String × List Nat)) (s : Seq) : Keeps T c (delFromTags c s tags) := by
  unfold delFromTags
  induction tags generalizing c with
  | nil => exact .refl _ _
  | cons t tags ih =>
    refine Keeps.trans ?_ (ih _)
    beta_reduce
    split
    · rename_i l hl
      exact keeps_dset (.inl (dget_isSome.1 (by rw [hl]; rfl))) _
    · exact .refl _ _

theorem keeps_fold {T tags : List String} (hT : ∀ t ∈ tags, t ∈ T) (cps : List Nat) (c : List (String × List Nat)) :
    Keeps T c (cps.foldl (fun c x => addToTags c [x] tags) c) := by
  induction cps generalizing c with
  | nil => exact .refl _ _
  | cons x cps ih => exact (keeps_addToTags hT c [x]).trans (ih _)

theorem keeps_addCp (db : UniDb) (g : LGR) (arg : CpArg) (o : Opts) : Keeps o.tag g.tagCls (g.addCp db arg o).1.tagCls := by
  unfold LGR.addCp
  split
  · exact .refl _ _
  · split
    · exact .refl _ _
    · exact keeps_addToTags (fun _ h => h) _ _

theorem keeps_addRange (db : UniDb) (g : LGR) (f l : Nat) (o : Opts) : Keeps o.tag g.tagCls (g.addRange db f l o).1.tagCls := by
  rcases C04.addRange_cases db g f l o with ⟨e, he, _⟩ | ⟨cps, hp, he⟩
  · rw [he]; exact .refl _ _
  · rw [he]
    split
    · exact .refl _ _
    · exact keeps_fold (fun _ h => h) _ _

theorem tags_expandRange (db : UniDb) (g : LGR) (f l : Nat) : (g.expandRange db f l).1.tagCls = g.tagCls := by
  unfold LGR.expandRange
  split
  · rfl
  · split
    · rfl
    · split <;> rfl

theorem tags_expandLoop (db : UniDb) (l : List (Nat × Nat)) (g : LGR) : (g.expandLoop db l).1.tagCls = g.tagCls := by
  induction l generalizing g with
  | nil => rfl
  | cons p l ih =>
    have h := tags_expandRange db g p.1 p.2
    rw [LGR.expandLoop]
    generalize g.expandRange db p.1 p.2 = res at h ⊢
    obtain ⟨g', o⟩ := res
    cases o with
    | error e => exact h
    | ok u => rw [← h]; exact ih g'

theorem keeps_collapsed (db : UniDb) (o : Opts) (l : List (Nat × Nat)) (g : LGR) :
    Keeps o.tag g.tagCls (g.addCollapsed db o l).1.tagCls := by
  induction l generalizing g with
  | nil => exact .refl _ _
  | cons p l ih =>
    have h : Keeps o.tag g.tagCls (if p.1 = p.2 then g.addCp db (.seq [p.1]) o else g.addRange db p.1 p.2 o).1.tagCls := by
      split
      · exact keeps_addCp _ _ _ _
      · exact keeps_addRange _ _ _ _ _
    rw [LGR.addCollapsed]
    generalize (if p.1 = p.2 then g.addCp db (.seq [p.1]) o else g.addRange db p.1 p.2 o) = res at h ⊢
    obtain ⟨g', r⟩ := res
    cases r with
    | error e => exact h
    | ok u => exact h.trans (ih g')

/-- The tags which a call gives. -/
def given : LGR.Op → List String
  | .addCp _ o => o.tag
  | .addRange _ _ o => o.tag
  | .addCodepoints _ o => o.tag
  | _ => []

theorem keeps_step (ctx : Ctx) (g : LGR) (op : LGR.Op) (hd : ∀ t, op ≠ .delTag t) :
    Keeps (given op) g.tagCls (LGR.step ctx g op).1.tagCls := by
  cases op with
  | addCp arg o => exact keeps_addCp _ _ _ _
  | delCp arg =>
    simp only [LGR.step]
    unfold LGR.delCp
    split
    · exact .refl _ _
    · split
      · exact .refl _ _
      · split
        · exact .refl _ _
        · exact keeps_delFromTags _ _ _ _
  | addRange f l o => exact keeps_addRange _ _ _ _ _
  | delRange f l =>
    simp only [LGR.step]
    unfold LGR.delRange
    split <;> exact .refl _ _
  | expandRange f l =>
    simp only [LGR.step]
    rw [tags_expandRange]; exact .refl _ _
  | expandRanges =>
    simp only [LGR.step, LGR.expandRanges]
    rw [tags_expandLoop]; exact .refl _ _
  | addVariant arg var t o =>
    simp only [LGR.step]
    unfold LGR.addVariant
    split
    · exact .refl _ _
    · split <;> exact .refl _ _
  | delVariant arg var w n =>
    have h : (g.delVariant ctx.db arg var w n).1.tagCls = g.tagCls := by
      unfold LGR.delVariant
      split
      · rfl
      · split
        · split <;> rfl
        · split <;> rfl
    simp only [LGR.step]
    generalize g.delVariant ctx.db arg var w n = res at h ⊢
    obtain ⟨g', o⟩ := res
    cases o <;> (simp only at h ⊢; rw [h]; exact .refl _ _)
  | addCodepoints cps o =>
    simp only [LGR.step]
    unfold LGR.addCodepoints
    split
    · exact .refl _ _
    · split
      · exact .refl _ _
      · exact keeps_collapsed ctx.db ({ comment := o.comment, ref := o.ref, tag := o.tag } : Opts) _ g
  | delTag t => exact absurd rfl (hd t)
  | addReference v k i =>
    have h : (g.addReference ctx.valid v k i).1.tagCls = g.tagCls := by
      unfold LGR.addReference
      split <;> rfl
    simp only [LGR.step]
    generalize g.addReference ctx.valid v k i = res at h ⊢
    obtain ⟨g', o⟩ := res
    cases o <;> (simp only at h ⊢; rw [h]; exact .refl _ _)
  | delReference i =>
    have h : (LGR.step ctx g (.delReference i)).1.tagCls = g.tagCls := by
      simp only [LGR.step, LGR.delReference]; split <;> rfl
    rw [h]; exact .refl _ _
  | setRaise b => exact .refl _ _

theorem ddel_sub {c : List (String × List Nat)} {t u : String} (h : u ∈ (ddel c t).map Prod.fst) : u ∈ c.map Prod.fst := by
  induction c with
  | nil => exact h
  | cons p c ih =>
    obtain ⟨k, v⟩ := p
    rw [ddel] at h
    split at h
    · exact List.mem_cons_of_mem _ h
    · rw [List.map_cons, List.mem_cons] at h ⊢
      exact h.imp id ih

/-! ## What is listed -/

/-- **C146** A tag is only listed if a call gave it to a code point, whatever the other calls. -/
theorem listed_given (ops : List (Ctx × LGR.Op)) {others : List String} (ho : Named others) {t : String}
    (h : t ∈ Listed (LGR.run {} ops) others) : ∃ p ∈ ops, t ∈ given p.2 := by
  rw [listed_eq _ ho] at h
  suffices H : ∀ g : LGR, t ∈ (LGR.run g ops).tagCls.map Prod.fst → t ∈ g.tagCls.map Prod.fst ∨ ∃ p ∈ ops, t ∈ given p.2 by
    rcases H {} h with h | h
    · simp at h
    · exact h
  clear h
  induction ops with
  | nil => exact fun g h => .inl h
  | cons p ops ih =>
    intro g h
    have : t ∈ (LGR.step p.1 g p.2).1.tagCls.map Prod.fst ∨ ∃ q ∈ ops, t ∈ given q.2 := ih _ h
    rcases this with h1 | ⟨q, hq, h1⟩
    · by_cases hd : ∃ u, p.2 = .delTag u
      · obtain ⟨u, hu⟩ := hd
        rw [hu] at h1
        exact .inl (ddel_sub h1)
      · rcases (keeps_step p.1 g p.2 (fun u hu => hd ⟨u, hu⟩)).2 t h1 with h2 | h2
        · exact .inl h2
        · exact .inr ⟨p, by simp, h2⟩
    · exact .inr ⟨q, List.mem_cons_of_mem _ hq, h1⟩

/-- **C146** but for histories with `del_range`, forced tags or changed ranges (see C07): every tag of a code point is listed, once,
and its class has the code points with the tag. What is missing: a listed tag need not be the one of a code point. -/
theorem all_tags_partial (ops : List (Ctx × LGR.Op)) (h : Along TagSafe {} ops) {others : List String} (ho : Named others) :
    (Listed (LGR.run {} ops) others).Nodup ∧
    (∀ x c t, (LGR.run {} ops).rep.lookup [x] = some c → t ∈ c.attrs.tags → t ∈ Listed (LGR.run {} ops) others) ∧
    ∀ t s, dget (getTagClasses (lookupOf (LGR.run {} ops))) t = some s →
      ∀ x, x ∈ s ↔ ∃ c, (LGR.run {} ops).rep.lookup [x] = some c ∧ t ∈ c.attrs.tags := by
  have hm := along_inv TagSafe Mirror (fun ctx g op hw hi hs => mirror_step ctx g op hw hi hs) ops {} Repertoire.wf_empty
    (by simp) C07.mirror_empty h
  rw [listed_eq _ ho]
  refine ⟨hm.keys, ?_, ?_⟩
  · intro x c t hl ht
    have := (hm.mirror t x).2 ⟨c, hl, ht⟩
    unfold C50.tagSet at this
    rw [← dget_isSome]
    cases hd : dget (LGR.run {} ops).tagCls t with
    | none => rw [hd] at this; simp at this
    | some v => rfl
  · intro t s hs x
    rw [← hm.mirror t x]
    have hg : ∀ (l : List (String × List Nat)) (out : List (String × List Nat)), (l.map Prod.fst).Nodup →
        dget ((l.map (fun p => (Cls.tagPrefix ++ p.1, p.2))).foldl classStep out) t =
        match dget l t with | some s => some s | none => dget out t := by
      intro l
      induction l with
      | nil => intro out _; rfl
      | cons p l ih =>
        intro out hn
        rw [List.map_cons, List.nodup_cons] at hn
        rw [List.map_cons, List.foldl_cons]
        simp only [classStep, tagOf_prefix]
        rw [ih _ hn.2]
        by_cases hp : p.1 = t
        · have : dget l t = none := by
            cases hd : dget l t with
            | none => rfl
            | some v => exact absurd (dget_isSome.1 (by rw [hd]; rfl)) (hp ▸ hn.1)
          simp [this, dget_dset, dget, hp]
        · have hp' : t ≠ p.1 := fun h => hp h.symm
          simp [dget_dset, dget, hp, hp']
    have := hg (LGR.run {} ops).tagCls [] hm.keys
    unfold getTagClasses lookupOf at hs
    rw [this] at hs
    unfold C50.tagSet
    cases hd : dget (LGR.run {} ops).tagCls t with
    | none => rw [hd] at hs; simp [dget] at hs
    | some v => rw [hd] at hs; simp only [Option.some.injEq] at hs; subst hs; simp

/-- **C146** is violated: once a tag is listed it stays, until `del_tag`, even if no code point has it any more. -/
theorem kept_wrong (g : LGR) (ops : List (Ctx × LGR.Op)) {others : List String} (ho : Named others) {t : String}
    (h : t ∈ Listed g others) (hd : ∀ p ∈ ops, ∀ u, p.2 ≠ .delTag u) : t ∈ Listed (LGR.run g ops) others := by
  rw [listed_eq _ ho] at h ⊢
  induction ops generalizing g with
  | nil => exact h
  | cons p ops ih =>
    exact ih _ ((keeps_step p.1 g p.2 (hd p (by simp))).1 t h) (fun q hq => hd q (List.mem_cons_of_mem _ hq))

/-- A tag of an LGR without code points. -/
theorem stale_wrong : ∃ ops, Along TagSafe {} ops ∧ (LGR.run {} ops).rep.allChars = [] ∧
    Listed (LGR.run {} ops) [] = ["t"] :=
  ⟨[(C06.ctx0, .addCp (.int 97) { tag := ["t"] }), (C06.ctx0, .delCp (.int 97))], ⟨.inl rfl, trivial, trivial⟩,
    by decide +kernel, by decide +kernel⟩

/-- **C146** is violated: the name of a class may be the one of a tag class. -/
theorem name_wrong : ∃ others, Listed {} others = ["t"] := ⟨[Cls.tagPrefix ++ "t"], by decide +kernel⟩

/-- Hypotheses of `all_tags_partial`: two tags. -/
example : Along TagSafe {} (C06.sample ++ [(C06.ctx0, .addCp (.int 45) { tag := ["u", "t"] })]) ∧ Named ["c"] ∧
    Listed (LGR.run {} (C06.sample ++ [(C06.ctx0, .addCp (.int 45) { tag := ["u", "t"] })])) ["c"] = ["t", "u"] := by
  refine ⟨⟨.inl rfl, ⟨.inl rfl, .inl (by rfl)⟩, .inl rfl, trivial, .inl rfl, trivial⟩, ?_, by decide +kernel⟩
  intro n hn t h
  simp only [List.mem_singleton] at hn
  subst hn
  have := congrArg (fun s => s.toList.length) h
  simp only [String.toList_append, List.length_append] at this
  have h2 : Cls.tagPrefix.toList.length > 1 := by decide +kernel
  have h3 : "c".toList.length = 1 := by decide +kernel
  omega

end Lgr.Props.C146
