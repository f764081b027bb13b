import Verif.Args

/-!
# C144: the tools start

For all command lines that `argparse` accepts, and all versions of `argparse` that fill in the declared options.
-/

namespace Lgr.Props.C144
open Lgr Args

/-! ## Specification -/

/-- What `argparse` makes of an option. -/
def Fits (o : Opt) (v : Val) : Prop :=
  match o.kind with
  | .flag => ∃ b, v = .bool b
  | .value => (∃ s, v = .str s) ∨ (o.required = false ∧ v = o.default_)
  | .append => ∃ l, l ≠ [] ∧ v = .list l
  | .many => ∃ l, l ≠ [] ∧ v = .list l
  | .positional => ∃ s, v = .str s
  | .maybe => (∃ s, v = .str s) ∨ v = .none

/-- The attributes are those of the declared options. -/
structure Filled (os : List Opt) (ns : Ns) : Prop where
  all : ∀ o ∈ os, o.dest ≠ "help" → ∃ v, dget ns o.dest = some v ∧ Fits o v
  only : ∀ a v, dget ns a = some v → ∃ o ∈ os, o.dest = a

/-- `argparse` fills in the attributes or ends the program. -/
def Conforming (P : Argparse) : Prop :=
  ∀ os argv, (∀ ns, P os argv = .ok ns → Filled os ns) ∧ ∀ e, P os argv = .error e → e = .exit

/-- A flag is set. -/
def On (ns : Ns) (a : String) : Prop := dget ns a = some (.bool true)

/-- The text is made of three parts with number signs between them. -/
def Parts (s : String) (l : Libs) : Prop :=
  '#' ∉ l.path.toList ∧ '#' ∉ l.i18n.toList ∧ '#' ∉ l.version.toList ∧ s = l.path ++ "#" ++ l.i18n ++ "#" ++ l.version

/-- The options by which the documents are given, by the name of the tool. -/
def docOptions (name : String) : List String :=
  if name = "lgr_compare" ∨ name = "lgr_diff_collisions" then ["first", "second"]
  else if name = "lgr_harmonize" then ["first", "second", "root_zone"]
  else if name = "lgr_merge_set" then ["lgr_set"]
  else if name = "lgr_annotate" ∨ name = "lgr_populate_variants" ∨ name = "lgr_validate" then ["lgr_xml"]
  else if name = "lgr_cli" ∨ name = "rfc7940_validate" then ["xml"]
  else ["file"]

/-- A path is given by an option. -/
def Given (ns : Ns) (a x : String) : Prop :=
  dget ns a = some (.str x) ∨ ∃ l, dget ns a = some (.list l) ∧ x ∈ l

/-- The work starts as the command line tells. -/
structure Starts (name : String) (ns : Ns) (s : Started) : Prop where
  critical : s.level = .critical ↔ On ns "quiet"
  debug : s.level = .debug ↔ On ns "verbose" ∧ ¬ On ns "quiet"
  error : s.level = .error ↔ On ns "test" ∧ ¬ On ns "verbose" ∧ ¬ On ns "quiet"
  noLibs : s.libs = none ↔ ∀ x, dget ns "libs" = some (.str x) → x = ""
  libs : ∀ l, s.libs = some l → ∃ x, dget ns "libs" = some (.str x) ∧ Parts x l
  documents : ∀ x, x ∈ s.xml ↔ ∃ a ∈ docOptions name, Given ns a x

/-! ## Proofs -/

theorem splitHash_ne (s : List Char) : splitHash s ≠ [] := by
  cases s with
  | nil => simp [splitHash]
  | cons c s =>
    rw [splitHash]
    split
    · simp
    · split <;> simp

theorem splitHash_flat : ∀ s : List Char, (splitHash s).flatMap (fun w => '#' :: w) = '#' :: s ∧ ∀ w ∈ splitHash s, '#' ∉ w
  | [] => by simp [splitHash]
  | c :: s => by
    obtain ⟨h1, h2⟩ := splitHash_flat s
    rw [splitHash]
    split
    · next h =>
      subst h
      constructor
      · rw [List.flatMap_cons, h1]; rfl
      · intro w hw
        rcases List.mem_cons.1 hw with rfl | hw
        · simp
        · exact h2 w hw
    · next h =>
      cases hs : splitHash s with
      | nil => exact absurd hs (splitHash_ne s)
      | cons w ws =>
        rw [hs] at h1 h2
        dsimp only
        rw [List.flatMap_cons, List.cons_append, List.cons.injEq] at h1
        constructor
        · rw [List.flatMap_cons, List.cons_append, List.cons_append, h1.2]
        · intro v hv
          rcases List.mem_cons.1 hv with rfl | hv
          · rw [List.mem_cons, not_or]
            exact ⟨fun e => h e.symm, h2 w (List.mem_cons_self ..)⟩
          · exact h2 v (List.mem_cons_of_mem _ hv)

theorem splitHash_append : ∀ (a s : List Char), '#' ∉ a → splitHash (a ++ '#' :: s) = a :: splitHash s
  | [], s, _ => by simp [splitHash]
  | c :: a, s, h => by
    rw [List.mem_cons, not_or] at h
    rw [List.cons_append, splitHash, if_neg (fun e => h.1 e.symm), splitHash_append a s h.2]

theorem splitHash_single : ∀ a : List Char, '#' ∉ a → splitHash a = [a]
  | [], _ => rfl
  | c :: a, h => by
    rw [List.mem_cons, not_or] at h
    rw [splitHash, if_neg (fun e => h.1 e.symm), splitHash_single a h.2]

theorem unpack_iff {s : String} {l : Libs} : unpackLibs s = .ok l ↔ Parts s l := by
  constructor
  · intro h
    unfold unpackLibs at h
    split at h
    · next a b c he =>
      cases h
      obtain ⟨h1, h2⟩ := splitHash_flat s.toList
      rw [he] at h1 h2
      refine ⟨by simpa using h2 a (by simp), by simpa using h2 b (by simp), by simpa using h2 c (by simp), ?_⟩
      apply String.ext
      simp only [List.flatMap_cons, List.flatMap_nil, List.append_nil, List.cons_append, List.cons.injEq, true_and] at h1
      rw [← h1]
      simp
    · cases h
  · rintro ⟨h1, h2, h3, rfl⟩
    unfold unpackLibs
    have : (l.path ++ "#" ++ l.i18n ++ "#" ++ l.version).toList =
        l.path.toList ++ '#' :: (l.i18n.toList ++ '#' :: l.version.toList) := by simp
    rw [this, splitHash_append _ _ h1, splitHash_append _ _ h2, splitHash_single _ h3]
    simp

theorem unpack_error {s : String} {e : Stop} (h : unpackLibs s = .error e) : e = .raised .valueError ∧ ¬ ∃ l, Parts s l := by
  refine ⟨?_, fun ⟨l, hl⟩ => by rw [unpack_iff.2 hl] at h; cases h⟩
  unfold unpackLibs at h
  split at h
  · cases h
  · cases h; rfl

/-- What is needed of the declared options. -/
def declared (os : List Opt) (used : List String) : Bool :=
  os.any (fun o => decide (o.dest = "verbose") && decide (o.kind = .flag)) &&
    os.any (fun o => decide (o.dest = "quiet") && decide (o.kind = .flag)) &&
    os.all (fun o => !decide (o.dest = "test") || decide (o.kind = .flag)) &&
    used.all (fun a => !decide (a = "help") && os.any (fun o => decide (o.dest = a)))

/-- The option of the libraries is declared. -/
def libsDeclared (os : List Opt) : Bool :=
  os.any (fun o => decide (o.dest = "libs") && decide (o.kind = .value) && decide (o.default_ = .none))

theorem flag_read {os : List Opt} {ns : Ns} (hf : Filled os ns) {a : String} (ha : a ≠ "help")
    (h : os.any (fun o => decide (o.dest = a) && decide (o.kind = .flag)) = true) : ∃ b, dget ns a = some (.bool b) := by
  obtain ⟨o, ho, h⟩ := List.any_eq_true.1 h
  rw [Bool.and_eq_true] at h
  have h1 : o.dest = a := of_decide_eq_true h.1
  have h2 : o.kind = .flag := of_decide_eq_true h.2
  obtain ⟨v, hv, hfit⟩ := hf.all o ho (by rw [h1]; exact ha)
  unfold Fits at hfit
  rw [h2] at hfit
  obtain ⟨b, rfl⟩ := hfit
  exact ⟨b, by rw [← h1]; exact hv⟩

theorem needs_ok {ns : Ns} : ∀ {l : List String}, (∀ a ∈ l, ∃ v, dget ns a = some v) → needs ns l = .ok ()
  | [], _ => rfl
  | a :: l, h => by
    obtain ⟨v, hv⟩ := h a (List.mem_cons_self ..)
    rw [needs, attr, hv]
    exact needs_ok (fun b hb => h b (List.mem_cons_of_mem _ hb))

theorem used_read {os : List Opt} {ns : Ns} (hf : Filled os ns) {used : List String}
    (h : used.all (fun a => !decide (a = "help") && os.any (fun o => decide (o.dest = a))) = true) :
    ∀ a ∈ used, ∃ v, dget ns a = some v := by
  intro a ha
  have h := List.all_eq_true.1 h a ha
  rw [Bool.and_eq_true] at h
  obtain ⟨o, ho, h2⟩ := List.any_eq_true.1 h.2
  have h2 : o.dest = a := of_decide_eq_true h2
  obtain ⟨v, hv, -⟩ := hf.all o ho (by rw [h2]; simpa using h.1)
  exact ⟨v, by rw [← h2]; exact hv⟩

/-- The level is as the flags tell. -/
structure LevelOf (ns : Ns) (l : Level) : Prop where
  critical : l = .critical ↔ On ns "quiet"
  debug : l = .debug ↔ On ns "verbose" ∧ ¬ On ns "quiet"
  error : l = .error ↔ On ns "test" ∧ ¬ On ns "verbose" ∧ ¬ On ns "quiet"

theorem logger_ok {os : List Opt} {ns : Ns} (hf : Filled os ns)
    (hv : os.any (fun o => decide (o.dest = "verbose") && decide (o.kind = .flag)) = true)
    (hq : os.any (fun o => decide (o.dest = "quiet") && decide (o.kind = .flag)) = true)
    (ht : os.all (fun o => !decide (o.dest = "test") || decide (o.kind = .flag)) = true) :
    ∃ l, setupLogger ns = .ok l ∧ LevelOf ns l := by
  obtain ⟨v, hv⟩ := flag_read hf (by decide) hv
  obtain ⟨q, hq⟩ := flag_read hf (by decide) hq
  have ht : dget ns "test" = none ∨ ∃ b, dget ns "test" = some (.bool b) := by
    cases h : dget ns "test" with
    | none => exact .inl rfl
    | some w =>
      obtain ⟨o, ho, hd⟩ := hf.only _ _ h
      have h2 := List.all_eq_true.1 ht o ho
      rw [hd] at h2
      obtain ⟨b, hb⟩ := flag_read hf (a := "test") (by decide)
        (List.any_eq_true.2 ⟨o, ho, by rw [hd]; simpa using h2⟩)
      exact .inr ⟨b, by rw [← h]; exact hb⟩
  unfold setupLogger attr testMode
  rw [hv, hq]
  refine ⟨_, rfl, ?_⟩
  rcases ht with ht | ⟨b, ht⟩
  · cases v <;> cases q <;> constructor <;> simp [On, hv, hq, ht, Val.truth]
  · cases v <;> cases q <;> cases b <;> constructor <;> simp [On, hv, hq, ht, Val.truth]

/-- The libraries are as the option tells. -/
structure LibsOf (ns : Ns) (o : Option Libs) : Prop where
  noLibs : o = none ↔ ∀ x, dget ns "libs" = some (.str x) → x = ""
  libs : ∀ l, o = some l → ∃ x, dget ns "libs" = some (.str x) ∧ Parts x l

theorem unidb_ok {os : List Opt} {ns : Ns} (hf : Filled os ns) (h : libsDeclared os = true) :
    (∃ l, getUnidb ns = .ok l ∧ LibsOf ns l) ∨
      (getUnidb ns = .error (.raised .valueError) ∧ ∃ x, dget ns "libs" = some (.str x) ∧ x ≠ "" ∧ ¬ ∃ l, Parts x l) := by
  obtain ⟨o, ho, h⟩ := List.any_eq_true.1 h
  rw [Bool.and_eq_true, Bool.and_eq_true] at h
  obtain ⟨⟨h1, h2⟩, h3⟩ := h
  have h1 := of_decide_eq_true h1
  have h2 := of_decide_eq_true h2
  have h3 := of_decide_eq_true h3
  obtain ⟨v, hv, hfit⟩ := hf.all o ho (by rw [h1]; decide)
  rw [h1] at hv
  unfold Fits at hfit
  rw [h2] at hfit
  unfold getUnidb attr
  rw [hv]
  dsimp only
  have key : v = .none ∨ ∃ s, v = .str s := by
    rcases hfit with hs | ⟨-, hd⟩
    · exact .inr hs
    · exact .inl (hd.trans h3)
  rcases key with rfl | ⟨s, rfl⟩
  · refine .inl ⟨none, rfl, ⟨⟨fun _ x hx => (by rw [hv] at hx; cases hx), fun _ => rfl⟩, fun l hl => (by cases hl)⟩⟩
  · by_cases hs : s = ""
    · subst hs
      refine .inl ⟨none, rfl, ⟨⟨fun _ x hx => (by rw [hv] at hx; cases hx; rfl), fun _ => rfl⟩, fun l hl => (by cases hl)⟩⟩
    · have ht : (Val.str s).truth = true := by simp [Val.truth, hs]
      rw [if_pos ht]
      dsimp only
      cases hu : unpackLibs s with
      | error e =>
        obtain ⟨rfl, hn⟩ := unpack_error hu
        exact .inr ⟨rfl, s, rfl, hs, hn⟩
      | ok l =>
        refine .inl ⟨some l, rfl, ⟨⟨fun h => (by cases h), fun h => absurd (h s hv) hs⟩, fun l' hl' => ?_⟩⟩
        cases hl'
        exact ⟨s, hv, unpack_iff.1 hu⟩

theorem paths_iff {ns : Ns} {a x : String} : x ∈ ((dget ns a).map paths).getD [] ↔ Given ns a x := by
  unfold Given
  cases h : dget ns a with
  | none => simp
  | some v => cases v <;> simp [paths, eq_comm]

theorem files_iff {ns : Ns} {fs : List String} {x : String} :
    x ∈ fs.flatMap (fun a => ((dget ns a).map paths).getD []) ↔ ∃ a ∈ fs, Given ns a x := by
  rw [List.mem_flatMap]
  exact exists_congr (fun a => and_congr_right (fun _ => paths_iff))

/-- The libraries are not given in three parts. -/
def BadLibs (ns : Ns) : Prop := ∃ x, dget ns "libs" = some (.str x) ∧ x ≠ "" ∧ ¬ ∃ l, Parts x l

theorem declared_iff {os : List Opt} {used : List String} (h : declared os used = true) :
    (os.any (fun o => decide (o.dest = "verbose") && decide (o.kind = .flag)) = true ∧
    os.any (fun o => decide (o.dest = "quiet") && decide (o.kind = .flag)) = true) ∧
    os.all (fun o => !decide (o.dest = "test") || decide (o.kind = .flag)) = true ∧
    used.all (fun a => !decide (a = "help") && os.any (fun o => decide (o.dest = a))) = true := by
  unfold declared at h
  simp only [Bool.and_eq_true] at h ⊢
  tauto

theorem withDb_starts {name : String} {os : List Opt} {ns : Ns} (hf : Filled os ns) {files rest : List String}
    (hd : declared os (files ++ rest) = true) (hl : libsDeclared os = true) (hn : docOptions name = files) :
    (∃ s, withDb files rest ns = .ok s ∧ Starts name ns s) ∨
      (withDb files rest ns = .error (.raised .valueError) ∧ BadLibs ns) := by
  obtain ⟨⟨h1, h2⟩, h3, h4⟩ := declared_iff hd
  obtain ⟨lev, hlog, hlev⟩ := logger_ok hf h1 h2 h3
  unfold withDb
  rw [hlog]
  dsimp only
  rcases unidb_ok hf hl with ⟨l, hu, hlib⟩ | ⟨hu, hb⟩
  · rw [hu]
    dsimp only
    rw [needs_ok (used_read hf h4)]
    exact .inl ⟨_, rfl, ⟨hlev.critical, hlev.debug, hlev.error, hlib.noLibs, hlib.libs, fun x => (by rw [hn]; exact files_iff)⟩⟩
  · rw [hu]
    exact .inr ⟨rfl, hb⟩

theorem withoutDb_starts {name : String} {os : List Opt} {ns : Ns} (hf : Filled os ns) {files rest : List String}
    (hd : declared os (files ++ rest) = true) (hl : os.all (fun o => !decide (o.dest = "libs")) = true)
    (hn : docOptions name = files) : ∃ s, withoutDb files rest ns = .ok s ∧ Starts name ns s := by
  obtain ⟨⟨h1, h2⟩, h3, h4⟩ := declared_iff hd
  obtain ⟨lev, hlog, hlev⟩ := logger_ok hf h1 h2 h3
  unfold withoutDb
  rw [hlog]
  dsimp only
  rw [needs_ok (used_read hf h4)]
  have hno : ∀ v, dget ns "libs" ≠ some v := by
    intro v hv
    obtain ⟨o, ho, hd⟩ := hf.only _ _ hv
    have := List.all_eq_true.1 hl o ho
    rw [hd] at this
    cases this
  exact ⟨_, rfl, ⟨hlev.critical, hlev.debug, hlev.error, ⟨fun _ x hx => absurd hx (hno _), fun _ => rfl⟩, fun l hl => (by cases hl),
    fun x => (by rw [hn]; exact files_iff)⟩⟩

theorem oneXml_starts {name : String} {os : List Opt} {ns : Ns} (hf : Filled os ns) {rest : List String}
    (hd : declared os ("xml" :: "rng" :: rest) = true) (hl : libsDeclared os = true)
    (hx : os.any (fun o => decide (o.dest = "xml") && decide (o.kind = .positional)) = true)
    (hlx : os.all (fun o => !decide (o.dest = "lgr_xml")) = true) (hn : docOptions name = ["xml"]) :
    (∃ s, oneXml rest ns = .ok s ∧ Starts name ns s) ∨
      (oneXml rest ns = .error (.raised .valueError) ∧ BadLibs ns) ∨
      (oneXml rest ns = .error (.raised .attributeError) ∧ Given ns "xml" "") := by
  obtain ⟨⟨h1, h2⟩, h3, h4⟩ := declared_iff hd
  obtain ⟨lev, hlog, hlev⟩ := logger_ok hf h1 h2 h3
  have hall := used_read hf h4
  obtain ⟨o, ho, h⟩ := List.any_eq_true.1 hx
  rw [Bool.and_eq_true] at h
  have hxd := of_decide_eq_true h.1
  have hxk := of_decide_eq_true h.2
  obtain ⟨v, hv, hfit⟩ := hf.all o ho (by rw [hxd]; decide)
  unfold Fits at hfit
  rw [hxk] at hfit
  obtain ⟨x, rfl⟩ := hfit
  rw [hxd] at hv
  have hno : dget ns "lgr_xml" = none := by
    cases hg : dget ns "lgr_xml" with
    | none => rfl
    | some v =>
      obtain ⟨o, ho, hd⟩ := hf.only _ _ hg
      have := List.all_eq_true.1 hlx o ho
      rw [hd] at this
      cases this
  obtain ⟨r, hr⟩ := hall "rng" (by simp)
  unfold oneXml
  rw [hlog]
  dsimp only
  unfold parseLgr xmlOrLgrXml attr
  rw [hv, hr, hno]
  dsimp only
  by_cases hxe : x = ""
  · subst hxe
    refine .inr (.inr ⟨rfl, .inl hv⟩)
  · have ht : (Val.str x).truth = true := by simp [Val.truth, hxe]
    rw [if_pos ht]
    dsimp only
    rcases unidb_ok hf hl with ⟨l, hu, hlib⟩ | ⟨hu, hb⟩
    · rw [hu]
      dsimp only
      rw [needs_ok (fun a ha => hall a (List.mem_cons_of_mem _ (List.mem_cons_of_mem _ ha)))]
      refine .inl ⟨_, rfl, ⟨hlev.critical, hlev.debug, hlev.error, hlib.noLibs, hlib.libs, fun y => ?_⟩⟩
      rw [hn]
      simp [Given, hv, paths, eq_comm]
    · rw [hu]
      exact .inr (.inl ⟨rfl, hb⟩)

/-- **C144** All tools but `lgr_collision` and `xml_dump` start, for all command lines which `argparse` accepts: the level of the
log, the Unicode libraries and the documents are the ones that were given. A `ValueError` is raised if and only if the libraries
are not given in three parts; an `AttributeError` only if an empty path is given for the document. -/
theorem tools_start_partial {P : Argparse} (hP : Conforming P) {t : Tool} (ht : t ∈ tools) (h1 : t.name ≠ "lgr_collision")
    (h2 : t.name ≠ "xml_dump") (argv : List String) :
    run P t argv = .error .exit ∨ ∃ ns, P (help :: t.opts) argv = .ok ns ∧ Filled (help :: t.opts) ns ∧
      ((∃ s, run P t argv = .ok s ∧ Starts t.name ns s) ∨
        (run P t argv = .error (.raised .valueError) ∧ BadLibs ns) ∨
        (run P t argv = .error (.raised .attributeError) ∧ docOptions t.name = ["xml"] ∧ Given ns "xml" "")) := by
  have hadd : addAll [help] t.opts = .ok (help :: t.opts) := by
    revert h1 h2
    revert t
    decide +kernel
  unfold run
  rw [hadd]
  dsimp only
  cases hp : P (help :: t.opts) argv with
  | error e =>
    obtain rfl := (hP _ _).2 _ hp
    exact .inl rfl
  | ok ns =>
    have hf := (hP _ _).1 _ hp
    refine .inr ⟨ns, rfl, hf, ?_⟩
    dsimp only
    have db : ∀ {files rest}, t.head = withDb files rest → declared (help :: t.opts) (files ++ rest) = true →
        libsDeclared (help :: t.opts) = true → docOptions t.name = files →
        ((∃ s, t.head ns = .ok s ∧ Starts t.name ns s) ∨
        (t.head ns = .error (.raised .valueError) ∧ BadLibs ns) ∨
        (t.head ns = .error (.raised .attributeError) ∧ docOptions t.name = ["xml"] ∧ Given ns "xml" "")) := by
      intro files rest he ha hb hc
      rw [he]
      rcases withDb_starts hf ha hb hc with h | h
      · exact .inl h
      · exact .inr (.inl h)
    have nodb : ∀ {files rest}, t.head = withoutDb files rest → declared (help :: t.opts) (files ++ rest) = true →
        (help :: t.opts).all (fun o => !decide (o.dest = "libs")) = true → docOptions t.name = files →
        ((∃ s, t.head ns = .ok s ∧ Starts t.name ns s) ∨
        (t.head ns = .error (.raised .valueError) ∧ BadLibs ns) ∨
        (t.head ns = .error (.raised .attributeError) ∧ docOptions t.name = ["xml"] ∧ Given ns "xml" "")) := by
      intro files rest he ha hb hc
      rw [he]
      exact .inl (withoutDb_starts hf ha hb hc)
    have one : ∀ {rest}, t.head = oneXml rest → declared (help :: t.opts) ("xml" :: "rng" :: rest) = true →
        libsDeclared (help :: t.opts) = true →
        (help :: t.opts).any (fun o => decide (o.dest = "xml") && decide (o.kind = .positional)) = true →
        (help :: t.opts).all (fun o => !decide (o.dest = "lgr_xml")) = true → docOptions t.name = ["xml"] →
        ((∃ s, t.head ns = .ok s ∧ Starts t.name ns s) ∨
        (t.head ns = .error (.raised .valueError) ∧ BadLibs ns) ∨
        (t.head ns = .error (.raised .attributeError) ∧ docOptions t.name = ["xml"] ∧ Given ns "xml" "")) := by
      intro rest he ha hb hc hd hn
      rw [he]
      rcases oneXml_starts hf ha hb hc hd hn with h | h | h
      · exact .inl h
      · exact .inr (.inl h)
      · exact .inr (.inr ⟨h.1, hn, h.2⟩)
    unfold tools at ht
    simp only [List.mem_cons, List.not_mem_nil, or_false] at ht
    rcases ht with rfl | rfl | rfl | rfl | rfl | rfl | rfl | rfl | rfl | rfl | rfl | rfl | rfl | rfl
    · exact db rfl (by decide +kernel) (by decide +kernel) (by decide +kernel)
    · exact one rfl (by decide +kernel) (by decide +kernel) (by decide +kernel) (by decide +kernel) (by decide +kernel)
    · exact absurd rfl h1
    · exact nodb rfl (by decide +kernel) (by decide +kernel) (by decide +kernel)
    · exact db rfl (by decide +kernel) (by decide +kernel) (by decide +kernel)
    · exact db rfl (by decide +kernel) (by decide +kernel) (by decide +kernel)
    · exact db rfl (by decide +kernel) (by decide +kernel) (by decide +kernel)
    · exact db rfl (by decide +kernel) (by decide +kernel) (by decide +kernel)
    · exact db rfl (by decide +kernel) (by decide +kernel) (by decide +kernel)
    · exact nodb rfl (by decide +kernel) (by decide +kernel) (by decide +kernel)
    · exact nodb rfl (by decide +kernel) (by decide +kernel) (by decide +kernel)
    · exact nodb rfl (by decide +kernel) (by decide +kernel) (by decide +kernel)
    · exact one rfl (by decide +kernel) (by decide +kernel) (by decide +kernel) (by decide +kernel) (by decide +kernel)
    · exact absurd rfl h2

/-- **C144** (violation) `lgr_collision` never starts: the option for the libraries is declared twice. -/
theorem collision_wrong (P : Argparse) (argv : List String) : run P collision argv = .error .argumentError := by
  have h : addAll [help] collision.opts = .error .argumentError := by decide +kernel
  unfold run
  rw [h]

/-- **C144** (violation) `xml_dump` never comes to the document: the option for the libraries is not declared, but read. -/
theorem xml_dump_wrong {P : Argparse} (hP : Conforming P) (argv : List String) :
    run P xmlDump argv = .error .exit ∨ run P xmlDump argv = .error (.raised .attributeError) := by
  have hadd : addAll [help] xmlDump.opts = .ok (help :: xmlDump.opts) := by decide +kernel
  unfold run
  rw [hadd]
  dsimp only
  cases hp : P (help :: xmlDump.opts) argv with
  | error e =>
    obtain rfl := (hP _ _).2 _ hp
    exact .inl rfl
  | ok ns =>
    right
    have hf := (hP _ _).1 _ hp
    obtain ⟨lev, hlog, -⟩ := logger_ok hf (by decide +kernel) (by decide +kernel) (by decide +kernel)
    have hall := used_read hf (used := ["rng"]) (by decide +kernel)
    obtain ⟨r, hr⟩ := hall "rng" (by simp)
    have hno : dget ns "libs" = none := by
      cases hg : dget ns "libs" with
      | none => rfl
      | some v =>
        obtain ⟨o, ho, hd⟩ := hf.only _ _ hg
        have h0 : ∀ o ∈ help :: xmlDump.opts, o.dest ≠ "libs" := by decide +kernel
        exact absurd hd (h0 o ho)
    show oneXml _ ns = _
    unfold oneXml
    rw [hlog]
    dsimp only
    have hx : ∃ e, parseLgr ns lev = .error e ∧ e = .raised .attributeError := by
      unfold parseLgr xmlOrLgrXml getUnidb attr
      rw [hr, hno]
      dsimp only
      split
      · next e h =>
        refine ⟨_, rfl, ?_⟩
        split at h
        · next h2 =>
          split at h2
          · cases h2; cases h; rfl
          · cases h2
        · split at h
          · cases h
          · split at h
            · cases h; rfl
            · cases h
      · exact ⟨_, rfl, rfl⟩
    obtain ⟨e, he, rfl⟩ := hx
    rw [he]

/-! ## A version of `argparse` -/

/-- Whether an option is filled in. -/
def fitsB (o : Opt) (v : Val) : Bool :=
  match o.kind, v with
  | .flag, .bool _ => true
  | .value, .str _ => true
  | .value, v => !o.required && decide (v = o.default_)
  | .append, .list l => decide (l ≠ [])
  | .many, .list l => decide (l ≠ [])
  | .positional, .str _ => true
  | .maybe, .str _ => true
  | .maybe, .none => true
  | _, _ => false

/-- The words of the command line, one after the other; only whole option strings, each with at most one value. -/
def scan (os : List Opt) : List String → List Opt → Ns → Option Ns
  | [], _, ns => some ns
  | w :: ws, ps, ns =>
    match os.find? (fun o => decide (w ∈ o.strings)) with
    | some o =>
      match o.kind with
      | .flag => if o.dest = "help" then none else scan os ws ps (dset ns o.dest (.bool true))
      | .value =>
        match ws with
        | [] => none
        | v :: ws' => scan os ws' ps (dset ns o.dest (.str v))
      | _ =>
        match ws with
        | [] => none
        | v :: ws' => scan os ws' ps (dset ns o.dest (.list (((dget ns o.dest).map paths).getD [] ++ [v])))
    | none =>
      match ps with
      | [] => none
      | p :: ps' => scan os ws ps' (dset ns p.dest (.str w))

/-- `parse_args`, in a simple form. -/
def simple : Argparse := fun os argv =>
  match scan os argv (os.filter (fun o => decide (o.strings = []))) ((os.filter (fun o => !decide (o.dest = "help"))).map
      (fun o => (o.dest, o.default_))) with
  | none => .error .exit
  | some ns =>
    if os.all (fun o => decide (o.dest = "help") || ((dget ns o.dest).map (fitsB o)).getD false) &&
        ns.all (fun p => os.any (fun o => decide (o.dest = p.1))) then .ok ns
    else .error .exit

theorem fits_of {o : Opt} {v : Val} (h : fitsB o v = true) : Fits o v := by
  unfold fitsB at h
  unfold Fits
  cases hk : o.kind <;> cases v <;> simp_all

theorem simple_conforming : Conforming simple := by
  intro os argv
  unfold simple
  cases scan os argv (os.filter (fun o => decide (o.strings = []))) ((os.filter (fun o => !decide (o.dest = "help"))).map
      (fun o => (o.dest, o.default_))) with
  | none => exact ⟨fun ns h => (by cases h), fun e h => (by cases h; rfl)⟩
  | some ns =>
    dsimp only
    split
    · next h =>
      refine ⟨fun ns' h' => ?_, fun e h => (by cases h)⟩
      cases h'
      rw [Bool.and_eq_true, List.all_eq_true, List.all_eq_true] at h
      constructor
      · intro o ho hh
        have := h.1 o ho
        cases hg : dget ns o.dest with
        | none => rw [hg] at this; simp [hh] at this
        | some v =>
          rw [hg] at this
          simp only [Option.map_some, Option.getD_some, Bool.or_eq_true, decide_eq_true_eq, hh, false_or] at this
          exact ⟨v, rfl, fits_of this⟩
      · intro a v hv
        obtain ⟨o, ho, hd⟩ := List.any_eq_true.1 (h.2 (a, v) (mem_of_dget hv))
        exact ⟨o, ho, of_decide_eq_true hd⟩
    · exact ⟨fun ns h => (by cases h), fun e h => (by cases h; rfl)⟩

/-- The cases of the theorem occur. -/
example : run simple validate ["-v", "-l", "uc.so#i18n.so#63", "-x", "a.xml", "--lgr-xml", "b.xml", "-s", "und-Cyrl"] =
    .ok { level := .debug, libs := some ⟨"uc.so", "i18n.so", "63"⟩, xml := ["a.xml", "b.xml"] } ∧
    run simple validate ["-l", "uc.so#63", "-x", "a.xml"] = .error (.raised .valueError) ∧
    run simple validate ["-x", "a.xml"] = .error .exit ∧
    run simple cli ["-l", "a#b#c", "-t", "lgr.xml"] = .ok { level := .error, libs := some ⟨"a", "b", "c"⟩, xml := ["lgr.xml"] } ∧
    run simple cli ["-l", "a#b#c", ""] = .error (.raised .attributeError) ∧
    run simple xmlDump ["lgr.xml"] = .error (.raised .attributeError) := by decide +kernel

end Lgr.Props.C144
