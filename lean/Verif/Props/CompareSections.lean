import Verif.Props.CompareMeta
import Verif.Props.RulesAny
import Verif.Props.CompareRules
import Verif.Props.Review

/-!
# C140: the rules of a union and an intersection
-/

namespace Lgr.Props.C140
open Lgr Xml MetaXml RulesXml DocXml Compare CompareTool C30 C57 C101 C38

/-- The name of a class or rule element. -/
def nameOf (n : Node) : String := (dget n.attrs "name").getD ""

/-- The texts of elements are read back as the elements. -/
def ReadBack (E : CompareTool.Env) (l : List Node) : Prop := ∀ n ∈ l, E.read (shown n) = some n

theorem readAll_spec {read : String → Option Node} : ∀ {ts : List String} {ns : List Node}, readAll read ts = .ok ns →
    List.Forall₂ (fun t n => read t = some n) ts ns
  | [], ns, h => by cases h; exact .nil
  | t :: ts, ns, h => by
    unfold readAll at h
    split at h
    · cases h
    · rename_i n hn
      split at h
      · cases h
      · rename_i ms hms
        cases h
        exact .cons hn (readAll_spec hms)

theorem readAll_map {read : String → Option Node} : ∀ {l : List Node}, (∀ n ∈ l, read (shown n) = some n) →
    readAll read (l.map shown) = .ok l
  | [], _ => rfl
  | n :: l, h => by
    rw [List.map_cons, readAll.eq_2, h n (by simp)]
    dsimp only
    rw [readAll_map (fun k hk => h k (List.mem_cons_of_mem _ hk))]

/-! ## Named elements -/

/-- What a list of elements defines under a name. -/
theorem defines_iff {l : List Node} (hn : (l.map nameOf).Nodup) {m x : String} :
    Defines (l.map nameOf) (l.map shown) m x ↔ ∃ n ∈ l, nameOf n = m ∧ shown n = x := by
  constructor
  · rintro ⟨i, h1, h2, -⟩
    rw [List.getElem?_map] at h1 h2
    cases hi : l[i]? with
    | none => rw [hi] at h1; cases h1
    | some n =>
      rw [hi] at h1 h2
      simp only [Option.map_some, Option.some.injEq] at h1 h2
      exact ⟨n, List.mem_of_getElem? hi, h1, h2⟩
  · rintro ⟨n, hm, rfl, rfl⟩
    obtain ⟨i, hi, rfl⟩ := List.getElem_of_mem hm
    refine ⟨i, by rw [List.getElem?_map, List.getElem?_eq_getElem hi]; rfl,
      by rw [List.getElem?_map, List.getElem?_eq_getElem hi]; rfl, fun j hj he => ?_⟩
    rw [List.getElem?_eq_some_iff] at he
    obtain ⟨hjl, he⟩ := he
    have hil : i < (l.map nameOf).length := by simpa using hi
    have := (List.Nodup.getElem_inj_iff hn (hi := hjl) (hj := hil)).1 (by rw [he, List.getElem_map])
    omega

/-- Two lists of elements whose names are distinct, and where elements of the same name are the same. -/
structure Agree (l1 l2 : List Node) : Prop where
  first : (l1.map nameOf).Nodup
  second : (l2.map nameOf).Nodup
  same : ∀ n ∈ l1, ∀ m ∈ l2, nameOf n = nameOf m → n = m

variable {ord : SetOrder} {E : CompareTool.Env} {l1 l2 : List Node}

theorem common_names {n1 x1 n2 x2 : List String} (hs : ∀ m a b, Defines n1 x1 m a → Defines n2 x2 m b → a = b) :
    ∀ (l : List String) {out out' : List String × List String}, (∀ m ∈ l, m ∈ n1 ∧ m ∈ n2) →
      forEach (commonStep renamed n1 x1 n2 x2) out l = (out', .ok ()) → out'.1 = out.1 ++ l
  | [], out, out', _, h => by
    obtain rfl : out = out' := congrArg Prod.fst h
    simp
  | m :: l, out, out', hl, h => by
    rw [forEach] at h
    obtain ⟨hm1, hm2⟩ := hl m (by simp)
    cases h1 : atName n1 x1 m with
    | error e => simp [commonStep, h1] at h
    | ok a =>
      cases h2 : atName n2 x2 m with
      | error e => simp [commonStep, h1, h2] at h
      | ok b =>
        have hab := hs m a b ((atName_iff _ _ _ _ hm1).1 h1) ((atName_iff _ _ _ _ hm2).1 h2)
        simp only [commonStep, h1, h2, if_pos hab] at h
        rw [common_names hs l (fun k hk => hl k (List.mem_cons_of_mem _ hk)) h]
        simp

theorem own_names {n x : List String} : ∀ (l : List String) {out out' : List String × List String},
    forEach (ownStep n x) out l = (out', .ok ()) → out'.1 = out.1 ++ l
  | [], out, out', h => by
    obtain rfl : out = out' := congrArg Prod.fst h
    simp
  | m :: l, out, out', h => by
    rw [forEach] at h
    cases h1 : atName n x m with
    | error e => simp [ownStep, h1] at h
    | ok a =>
      simp only [ownStep, h1] at h
      rw [own_names l h]
      simp

theorem agree_defines (h : Agree l1 l2) (m a b : String) (h1 : Defines (l1.map nameOf) (l1.map shown) m a)
    (h2 : Defines (l2.map nameOf) (l2.map shown) m b) : a = b := by
  obtain ⟨n, hn, rfl, rfl⟩ := (defines_iff h.first).1 h1
  obtain ⟨k, hk, e, rfl⟩ := (defines_iff h.second).1 h2
  rw [h.same n hn k hk e.symm]

/-- The names of a union are distinct. -/
theorem union_names (h : Agree l1 l2) {names xml : List String}
    (hu : unionNamed ord renamed (l1.map nameOf) (l1.map shown) (l2.map nameOf) (l2.map shown) = .ok (names, xml)) :
    names.Nodup := by
  unfold unionNamed at hu
  simp only at hu
  split at hu
  · cases hu
  rename_i o1 hc
  split at hu
  · cases hu
  rename_i o2 h1
  split at hu
  · cases hu
  rename_i o3 h2
  have e1 := common_names (agree_defines h) _ (fun m hm => by
    rw [(ord.strs_perm _).mem_iff] at hm
    simpa [mem_toSet] using hm) hc
  have e2 := own_names _ h1
  have e3 := own_names _ h2
  simp only [Except.ok.injEq] at hu
  subst hu
  simp only at e3
  rw [e3, e2, e1, List.nil_append, List.append_assoc, List.nodup_append, List.nodup_append]
  have hn := nodup_toSet (l1.map nameOf)
  have hn2 := nodup_toSet (l2.map nameOf)
  refine ⟨((ord.strs_perm _).nodup_iff).2 (hn.filter _), ⟨((ord.strs_perm _).nodup_iff).2 (hn.filter _),
    ((ord.strs_perm _).nodup_iff).2 (hn2.filter _), ?_⟩, ?_⟩
  · intro a ha b hb hab
    rw [(ord.strs_perm _).mem_iff, List.mem_filter] at ha hb
    simp only [decide_eq_true_eq] at ha hb
    rw [hab] at ha
    exact ha.2 hb.1
  · intro a ha b hb hab
    rw [List.mem_append, (ord.strs_perm _).mem_iff, (ord.strs_perm _).mem_iff, List.mem_filter, List.mem_filter] at hb
    rw [(ord.strs_perm _).mem_iff, List.mem_filter] at ha
    simp only [decide_eq_true_eq] at ha hb
    rw [hab] at ha
    rcases hb with hb | hb
    · exact hb.2 ha.2
    · exact hb.2 ha.1

theorem intersect_names (h : Agree l1 l2) {names xml : List String}
    (hu : intersectNamed ord renamed (l1.map nameOf) (l1.map shown) (l2.map nameOf) (l2.map shown) = .ok (names, xml)) :
    names.Nodup := by
  unfold intersectNamed at hu
  simp only at hu
  split at hu
  · cases hu
  rename_i o1 hc
  have e1 := common_names (agree_defines h) _ (fun m hm => by
    rw [(ord.strs_perm _).mem_iff] at hm
    simpa [mem_toSet] using hm) hc
  simp only [Except.ok.injEq] at hu
  subst hu
  simp only at e1
  rw [e1, List.nil_append]
  exact ((ord.strs_perm _).nodup_iff).2 ((nodup_toSet _).filter _)

/-- The elements read from texts which are those of elements of `S`, under their names. -/
theorem read_pairs {S : Node → Prop} (hr : ∀ n, S n → E.read (shown n) = some n) {names xml : List String}
    (hlen : names.length = xml.length) (hp : ∀ p : String × String, p ∈ names.zip xml ↔ ∃ n, S n ∧ p = (nameOf n, shown n))
    (hn : names.Nodup) {ns : List Node} (h : readAll E.read xml = .ok ns) :
    (∀ n, n ∈ ns ↔ S n) ∧ ns.map nameOf = names := by
  have hf := readAll_spec h
  have hl2 := hf.length_eq
  have hxml : ∀ x, x ∈ xml ↔ ∃ n, S n ∧ shown n = x := by
    intro x
    constructor
    · intro hx
      obtain ⟨i, hi, rfl⟩ := List.getElem_of_mem hx
      have : (names[i]'(by omega), xml[i]) ∈ names.zip xml := by
        rw [List.mem_iff_getElem]
        exact ⟨i, by rw [List.length_zip]; omega, by rw [List.getElem_zip]⟩
      obtain ⟨n, h1, h2⟩ := (hp _).1 this
      exact ⟨n, h1, (congrArg Prod.snd h2).symm⟩
    · rintro ⟨n, hs, rfl⟩
      exact (List.of_mem_zip ((hp (nameOf n, shown n)).2 ⟨n, hs, rfl⟩)).2
  have hget : ∀ i (h1 : i < xml.length) (h2 : i < ns.length), E.read xml[i] = some ns[i] := fun i h1 h2 =>
    (List.forall₂_iff_get.1 hf).2 i h1 h2
  constructor
  · intro n
    constructor
    · intro hm
      obtain ⟨i, hi, rfl⟩ := List.getElem_of_mem hm
      have hix : i < xml.length := by omega
      obtain ⟨k, hk, e⟩ := (hxml xml[i]).1 (List.getElem_mem hix)
      have h1 := hget i hix hi
      rw [← e, hr k hk] at h1
      cases h1
      exact hk
    · intro hs
      obtain ⟨i, hi, e⟩ := List.getElem_of_mem ((hxml (shown n)).2 ⟨n, hs, rfl⟩)
      have hin : i < ns.length := by omega
      have h1 := hget i hi hin
      rw [e, hr n hs] at h1
      cases h1
      exact List.getElem_mem hin
  · apply List.ext_getElem
    · rw [List.length_map]; omega
    · intro i h1 h2
      have hin : i < ns.length := by simpa using h1
      have hix : i < xml.length := by omega
      have : (names[i], xml[i]) ∈ names.zip xml := by
        rw [List.mem_iff_getElem]
        exact ⟨i, by rw [List.length_zip]; omega, by rw [List.getElem_zip]⟩
      obtain ⟨k, hk, e⟩ := (hp _).1 this
      have e1 := congrArg Prod.fst e
      have e2 := congrArg Prod.snd e
      simp only at e1 e2
      have h3 := hget i hix hin
      rw [e2, hr k hk] at h3
      simp only [Option.some.injEq] at h3
      rw [List.getElem_map, ← h3, e1]

/-- The named elements of a union, as the writer reads them. -/
theorem union_elements (h : Agree l1 l2) (r1 : ReadBack E l1) (r2 : ReadBack E l2) {names xml : List String}
    (hu : unionNamed ord renamed (l1.map nameOf) (l1.map shown) (l2.map nameOf) (l2.map shown) = .ok (names, xml))
    {ns : List Node} (hr : readAll E.read xml = .ok ns) :
    (∀ n, n ∈ ns ↔ n ∈ l1 ∨ n ∈ l2) ∧ (ns.map nameOf).Nodup := by
  obtain ⟨hlen, hp⟩ := union_named_partial ord renamed _ _ _ _ names xml hu
  have hnd := union_names h hu
  obtain ⟨a, b⟩ := read_pairs (E := E) (S := fun n => n ∈ l1 ∨ n ∈ l2) (fun n hn => hn.elim (r1 n) (r2 n)) hlen (by
    rintro ⟨m, x⟩
    rw [hp]
    constructor
    · rintro (⟨k, -, -, a, b, d1, d2, hab⟩ | ⟨-, -, d⟩ | ⟨-, -, d⟩)
      · have e := agree_defines h _ _ _ d1 d2
        obtain ⟨n, hn, e1, e2⟩ := (defines_iff h.first).1 d1
        rcases hab with ⟨-, h3⟩ | ⟨hne, -⟩
        · exact ⟨n, .inl hn, by rw [h3, e1, e2]⟩
        · exact absurd e hne
      · obtain ⟨n, hn, e1, e2⟩ := (defines_iff h.first).1 d
        exact ⟨n, .inl hn, by rw [e1, e2]⟩
      · obtain ⟨n, hn, e1, e2⟩ := (defines_iff h.second).1 d
        exact ⟨n, .inr hn, by rw [e1, e2]⟩
    · rintro ⟨n, hn, e⟩
      cases e
      by_cases h1 : nameOf n ∈ l1.map nameOf
      · by_cases h2 : nameOf n ∈ l2.map nameOf
        · obtain ⟨n1, hn1, e1⟩ := List.mem_map.1 h1
          obtain ⟨n2, hn2, e2⟩ := List.mem_map.1 h2
          have e12 := h.same n1 hn1 n2 hn2 (e1.trans e2.symm)
          have en : n = n1 := by
            rcases hn with hn | hn
            · exact List.inj_on_of_nodup_map h.first hn hn1 e1.symm
            · exact (List.inj_on_of_nodup_map h.second hn hn2 e2.symm).trans e12.symm
          subst en
          subst e12
          exact .inl ⟨nameOf n, h1, h2, shown n, shown n, (defines_iff h.first).2 ⟨n, hn1, rfl, rfl⟩,
            (defines_iff h.second).2 ⟨n, hn2, rfl, rfl⟩, .inl ⟨rfl, rfl⟩⟩
        · have hn' : n ∈ l1 := hn.resolve_right fun hn => h2 (List.mem_map_of_mem hn)
          exact .inr (.inl ⟨h1, h2, (defines_iff h.first).2 ⟨n, hn', rfl, rfl⟩⟩)
      · have hn' : n ∈ l2 := hn.resolve_left fun hn => h1 (List.mem_map_of_mem hn)
        exact .inr (.inr ⟨List.mem_map_of_mem hn', h1, (defines_iff h.second).2 ⟨n, hn', rfl, rfl⟩⟩)) hnd hr
  exact ⟨a, by rw [b]; exact hnd⟩

/-- The named elements of an intersection. -/
theorem intersect_elements (h : Agree l1 l2) (r1 : ReadBack E l1) {names xml : List String}
    (hu : intersectNamed ord renamed (l1.map nameOf) (l1.map shown) (l2.map nameOf) (l2.map shown) = .ok (names, xml))
    {ns : List Node} (hr : readAll E.read xml = .ok ns) :
    (∀ n, n ∈ ns ↔ n ∈ l1 ∧ n ∈ l2) ∧ (ns.map nameOf).Nodup := by
  obtain ⟨hlen, hp⟩ := intersect_named_partial ord renamed _ _ _ _ names xml hu
  have hnd := intersect_names h hu
  obtain ⟨a, b⟩ := read_pairs (E := E) (S := fun n => n ∈ l1 ∧ n ∈ l2) (fun n hn => r1 n hn.1) hlen (by
    rintro ⟨m, x⟩
    rw [hp]
    constructor
    · rintro ⟨k, -, -, a, b, d1, d2, hab⟩
      have e := agree_defines h _ _ _ d1 d2
      obtain ⟨n, hn, e1, e2⟩ := (defines_iff h.first).1 d1
      obtain ⟨n', hn', e1', e2'⟩ := (defines_iff h.second).1 d2
      have en := h.same n hn n' hn' (e1.trans e1'.symm)
      subst en
      rcases hab with ⟨-, h3⟩ | ⟨hne, -⟩
      · exact ⟨n, ⟨hn, hn'⟩, by rw [h3, e1, e2]⟩
      · exact absurd e hne
    · rintro ⟨n, ⟨h1, h2⟩, e⟩
      cases e
      exact ⟨nameOf n, List.mem_map_of_mem h1, List.mem_map_of_mem h2, shown n, shown n,
        (defines_iff h.first).2 ⟨n, h1, rfl, rfl⟩, (defines_iff h.second).2 ⟨n, h2, rfl, rfl⟩, .inl ⟨rfl, rfl⟩⟩) hnd hr
  exact ⟨a, by rw [b]; exact hnd⟩

/-- Texts of elements which are read. -/
theorem readAll_ok {read : String → Option Node} : ∀ {ts : List String}, (∀ t ∈ ts, ∃ n, read t = some n) →
    ∃ ns, readAll read ts = .ok ns
  | [], _ => ⟨[], rfl⟩
  | t :: ts, h => by
    obtain ⟨n, hn⟩ := h t (by simp)
    obtain ⟨ns, hns⟩ := readAll_ok (fun u hu => h u (List.mem_cons_of_mem _ hu))
    exact ⟨n :: ns, by rw [readAll.eq_2, hn]; dsimp only; rw [hns]⟩

theorem mem_pairs {names xml : List String} (hlen : names.length = xml.length) {x : String} (hx : x ∈ xml) :
    ∃ m, (m, x) ∈ names.zip xml := by
  obtain ⟨i, hi, rfl⟩ := List.getElem_of_mem hx
  refine ⟨names[i]'(by omega), ?_⟩
  rw [List.mem_iff_getElem]
  exact ⟨i, by rw [List.length_zip]; omega, by rw [List.getElem_zip]⟩

theorem named_read (h : Agree l1 l2) (r1 : ReadBack E l1) (r2 : ReadBack E l2) {out : List String × List String}
    (hu : unionNamed ord renamed (l1.map nameOf) (l1.map shown) (l2.map nameOf) (l2.map shown) = .ok out) :
    ∃ ns, readAll E.read out.2 = .ok ns := by
  obtain ⟨hlen, hp⟩ := union_named_partial ord renamed _ _ _ _ out.1 out.2 hu
  refine readAll_ok fun x hx => ?_
  obtain ⟨m, hm⟩ := mem_pairs hlen hx
  rcases (hp _).1 hm with ⟨k, -, -, a, b, e1, e2, hab⟩ | ⟨-, -, e⟩ | ⟨-, -, e⟩
  · rcases hab with ⟨-, h3⟩ | ⟨hne, -⟩
    · obtain ⟨n, hn, -, e⟩ := (defines_iff h.first).1 e1
      rw [show x = a from congrArg Prod.snd h3, ← e]
      exact ⟨n, r1 n hn⟩
    · exact absurd (agree_defines h _ _ _ e1 e2) hne
  · obtain ⟨n, hn, -, e⟩ := (defines_iff h.first).1 e
    dsimp only at e
    rw [← e]
    exact ⟨n, r1 n hn⟩
  · obtain ⟨n, hn, -, e⟩ := (defines_iff h.second).1 e
    dsimp only at e
    rw [← e]
    exact ⟨n, r2 n hn⟩

theorem common_read (h : Agree l1 l2) (r1 : ReadBack E l1) {out : List String × List String}
    (hu : intersectNamed ord renamed (l1.map nameOf) (l1.map shown) (l2.map nameOf) (l2.map shown) = .ok out) :
    ∃ ns, readAll E.read out.2 = .ok ns := by
  obtain ⟨hlen, hp⟩ := intersect_named_partial ord renamed _ _ _ _ out.1 out.2 hu
  refine readAll_ok fun x hx => ?_
  obtain ⟨m, hm⟩ := mem_pairs hlen hx
  obtain ⟨k, -, -, a, b, e1, e2, hab⟩ := (hp _).1 hm
  rcases hab with ⟨-, h3⟩ | ⟨hne, -⟩
  · obtain ⟨n, hn, -, e⟩ := (defines_iff h.first).1 e1
    rw [show x = a from congrArg Prod.snd h3, ← e]
    exact ⟨n, r1 n hn⟩
  · exact absurd (agree_defines h _ _ _ e1 e2) hne

/-! ## Actions -/

theorem addNew_firsts : ∀ (l acc : List String), addNew id l (firsts acc) = firsts (acc ++ l)
  | [], acc => by simp [addNew]
  | a :: l, acc => by
    have ih := addNew_firsts l (acc ++ [a])
    rw [firsts_snoc, List.append_assoc, List.singleton_append] at ih
    rw [← ih]
    unfold addNew
    rw [List.foldl_cons]
    have : (id a ∈ (firsts acc).map id) ↔ a ∈ acc := by simp [mem_firsts]
    by_cases h : a ∈ acc
    · rw [if_pos (this.2 h), if_pos h]
    · rw [if_neg (fun hh => h (this.1 hh)), if_neg h]

/-- The actions of a union, as the writer reads them. -/
theorem union_acts (r1 : ReadBack E l1) (r2 : ReadBack E l2) {a1 a2 : List Action} {ns : List Node}
    (hr : readAll E.read (unionActions a1 (l1.map shown) a2 (l2.map shown)).2 = .ok ns) :
    ns.map shown = firsts ((l1 ++ l2).map shown) ∧ ∀ n, n ∈ ns ↔ n ∈ l1 ∨ n ∈ l2 := by
  have he : (unionActions a1 (l1.map shown) a2 (l2.map shown)).2 = firsts ((l1 ++ l2).map shown) := by
    unfold unionActions toSet
    dsimp only
    have h0 : ([] : List String) = firsts [] := by decide +kernel
    rw [h0, addNew_firsts, addNew_firsts, List.nil_append, List.map_append]
  rw [he] at hr
  have hf := readAll_spec hr
  have hl := hf.length_eq
  have hb : ∀ n, n ∈ l1 ++ l2 → E.read (shown n) = some n := fun n hn =>
    (List.mem_append.1 hn).elim (r1 n) (r2 n)
  have hmem : ∀ x, x ∈ firsts ((l1 ++ l2).map shown) ↔ ∃ n ∈ l1 ++ l2, shown n = x := by
    intro x
    rw [mem_firsts, List.mem_map]
  obtain ⟨-, hget⟩ := List.forall₂_iff_get.1 hf
  have key : ∀ i (h1 : i < (firsts ((l1 ++ l2).map shown)).length) (h2 : i < ns.length),
      ns[i] ∈ l1 ++ l2 ∧ shown ns[i] = (firsts ((l1 ++ l2).map shown))[i] := by
    intro i h1 h2
    obtain ⟨n, hn, e⟩ := (hmem _).1 (List.getElem_mem h1)
    have h3 := hget i h1 h2
    simp only [List.get_eq_getElem] at h3
    rw [← e, hb n hn, Option.some.injEq] at h3
    rw [← h3]
    exact ⟨hn, e⟩
  constructor
  · apply List.ext_getElem
    · rw [List.length_map, hl]
    · intro i h1 h2
      rw [List.getElem_map]
      exact (key i h2 (by simpa using h1)).2
  · intro n
    rw [← List.mem_append]
    constructor
    · intro hn
      obtain ⟨i, hi, rfl⟩ := List.getElem_of_mem hn
      exact (key i (by omega) hi).1
    · intro hn
      obtain ⟨i, hi, e⟩ := List.getElem_of_mem ((hmem _).2 ⟨n, hn, rfl⟩)
      have hin : i < ns.length := by omega
      have h3 := hget i hi hin
      simp only [List.get_eq_getElem] at h3
      rw [e, hb n hn, Option.some.injEq] at h3
      rw [h3]
      exact List.getElem_mem hin

/-- The elements of actions and what they are read as. -/
abbrev Acts (l : List Node) (as : List Action) : Prop := List.Forall₂ (fun n a => parseAction n = .ok a) l as

theorem acts_mem {as : List Action} (h : Acts l1 as) {a : Action} : a ∈ as ↔ ∃ n ∈ l1, parseAction n = .ok a := by
  induction h with
  | nil => simp
  | cons h1 h2 ih =>
    rename_i n b ns bs
    simp only [List.mem_cons, ih, exists_eq_or_imp, h1, Except.ok.injEq]
    exact ⟨fun h => h.imp (fun h => h.symm) id, fun h => h.imp (fun h => h.symm) id⟩

theorem acts_read (r1 : ReadBack E l1) (r2 : ReadBack E l2) {a1 a2 : List Action} :
    ∃ ns, readAll E.read (unionActions a1 (l1.map shown) a2 (l2.map shown)).2 = .ok ns := by
  refine readAll_ok fun x hx => ?_
  unfold unionActions at hx
  dsimp only at hx
  have hx : x ∈ l1.map shown ∨ x ∈ l2.map shown := by
    have h0 : ([] : List String) = firsts [] := by decide +kernel
    unfold toSet at hx
    rw [h0, addNew_firsts, addNew_firsts, List.nil_append, mem_firsts, List.mem_append] at hx
    exact hx
  rcases hx with hx | hx
  · obtain ⟨n, hn, rfl⟩ := List.mem_map.1 hx
    exact ⟨n, r1 n hn⟩
  · obtain ⟨n, hn, rfl⟩ := List.mem_map.1 hx
    exact ⟨n, r2 n hn⟩

/-- The texts of actions of an intersection are those of the first LGR. -/
theorem sub_texts {second : Bool} {order : List Action → List Action} (hord : ∀ l, (order l).Perm l)
    {a1 a2 : List Action} {out : List Action × List String}
    (h : intersectActions order second a1 (l1.map shown) a2 = .ok out) : ∀ x ∈ out.2, ∃ k ∈ l1, x = shown k := by
  obtain ⟨-, -, -, c4⟩ := C56.intersect_actions_partial order hord second a1 (l1.map shown) a2 out.1 out.2 h
  · intro x hx
    obtain ⟨i, hi, rfl⟩ := List.getElem_of_mem hx
    obtain ⟨hl, hg⟩ := List.forall₂_iff_get.1 c4
    obtain ⟨j, b, -, -, h3, -⟩ := hg i (by omega) hi
    rw [List.getElem?_map] at h3
    cases hj : l1[j]? with
    | none => rw [hj] at h3; cases h3
    | some k =>
      rw [hj] at h3
      simp only [Option.map_some, Option.some.injEq, List.get_eq_getElem] at h3
      exact ⟨k, List.mem_of_getElem? hj, h3.symm⟩

theorem sub_read {second : Bool} {order : List Action → List Action} (hord : ∀ l, (order l).Perm l) (r1 : ReadBack E l1)
    {a1 a2 : List Action} {out : List Action × List String}
    (h : intersectActions order second a1 (l1.map shown) a2 = .ok out) : ∃ ns, readAll E.read out.2 = .ok ns := by
  refine readAll_ok fun x hx => ?_
  obtain ⟨k, hk, rfl⟩ := sub_texts hord h x hx
  exact ⟨k, r1 k hk⟩

/-- The elements of actions of an intersection are those of the first LGR. -/
theorem intersect_sub {second : Bool} {order : List Action → List Action} (hord : ∀ l, (order l).Perm l) (r1 : ReadBack E l1)
    {a1 a2 : List Action} {out : List Action × List String}
    (h : intersectActions order second a1 (l1.map shown) a2 = .ok out) {ns : List Node}
    (hr : readAll E.read out.2 = .ok ns) : ∀ n ∈ ns, n ∈ l1 := by
  have hf := readAll_spec hr
  have hx := sub_texts hord h
  intro n hn
  obtain ⟨i, hi, rfl⟩ := List.getElem_of_mem hn
  obtain ⟨hl, hg⟩ := List.forall₂_iff_get.1 hf
  have h3 := hg i (by omega) hi
  simp only [List.get_eq_getElem] at h3
  obtain ⟨k, hk, e⟩ := hx _ (List.getElem_mem (by omega : i < out.2.length))
  rw [e, r1 k hk] at h3
  cases h3
  exact hk

/-- The actions of an intersection: those of the first LGR with one alike in the second, one of those that are alike. -/
theorem intersect_acts {second : Bool} {order : List Action → List Action} (hord : ∀ l, (order l).Perm l) (r1 : ReadBack E l1)
    {a1 a2 out : List Action} {xs : List String} (h1 : Acts l1 a1)
    (h : intersectActions order second a1 (l1.map shown) a2 = .ok (out, xs)) {ns : List Node}
    (hr : readAll E.read xs = .ok ns) {as : List Action} (ha : Acts ns as) :
    (∀ n ∈ ns, n ∈ l1) ∧ (∀ a ∈ as, a ∈ a1) ∧
    (∀ a, (∃ b ∈ as, C55.Alike b a) ↔ (∃ b ∈ a1, C55.Alike b a) ∧ ∃ b ∈ a2, C55.Alike b a) ∧
    as.Pairwise (fun a b => ¬ C55.Alike a b) := by
  obtain ⟨-, c2, c3, c4⟩ := C56.intersect_actions_partial order hord second a1 (l1.map shown) a2 out xs h
  have hf := readAll_spec hr
  -- each action of the outcome is that of its element, up to likeness
  have hk : List.Forall₂ (fun o a => a ∈ a1 ∧ C55.Alike a o) out as ∧ ∀ n ∈ ns, n ∈ l1 := by
    clear h c2 c3 hr
    induction c4 generalizing ns as with
    | nil => cases hf; cases ha; exact ⟨.nil, by simp⟩
    | cons g1 g2 ih =>
      cases hf with
      | cons f1 f2 =>
        cases ha with
        | cons e1 e2 =>
          obtain ⟨i1, i2⟩ := ih e2 f2
          obtain ⟨i, b, hb, hl, hx, -⟩ := g1
          rw [List.getElem?_map] at hx
          cases hi : l1[i]? with
          | none => rw [hi] at hx; cases hx
          | some k =>
            rw [hi] at hx
            simp only [Option.map_some, Option.some.injEq] at hx
            rw [← hx, r1 k (List.mem_of_getElem? hi), Option.some.injEq] at f1
            subst f1
            obtain ⟨hl1, hg⟩ := List.forall₂_iff_get.1 h1
            obtain ⟨hi1, hi2⟩ := List.getElem?_eq_some_iff.1 hi
            obtain ⟨hb1, hb2⟩ := List.getElem?_eq_some_iff.1 hb
            have h3 := hg i hi1 hb1
            simp only [List.get_eq_getElem] at h3
            rw [hi2, hb2, e1] at h3
            cases h3
            exact ⟨.cons ⟨List.mem_of_getElem? hb, hl⟩ i1,
              fun n hn => (List.mem_cons.1 hn).elim (fun e => e ▸ List.mem_of_getElem? hi) (i2 n)⟩
  obtain ⟨k1, k2⟩ := hk
  have left : ∀ a ∈ as, a ∈ a1 ∧ ∃ o ∈ out, C55.Alike a o := by
    clear c2 c3 c4 ha h
    induction k1 with
    | nil => simp
    | cons g1 g2 ih =>
      intro a hm
      rcases List.mem_cons.1 hm with rfl | hm
      · exact ⟨g1.1, _, by simp, g1.2⟩
      · obtain ⟨i1, o, ho, i2⟩ := ih a hm
        exact ⟨i1, o, List.mem_cons_of_mem _ ho, i2⟩
  have right : ∀ o ∈ out, ∃ a ∈ as, C55.Alike a o := by
    clear c2 c3 c4 ha h left
    induction k1 with
    | nil => simp
    | cons g1 g2 ih =>
      intro o hm
      rcases List.mem_cons.1 hm with rfl | hm
      · exact ⟨_, by simp, g1.2⟩
      · obtain ⟨a, ho, i2⟩ := ih o hm
        exact ⟨a, List.mem_cons_of_mem _ ho, i2⟩
  refine ⟨k2, fun a ha => (left a ha).1, fun a => ?_, ?_⟩
  · rw [← c2]
    constructor
    · rintro ⟨b, hb, hab⟩
      obtain ⟨-, o, ho, hbo⟩ := left b hb
      exact ⟨o, ho, hbo.symm.trans hab⟩
    · rintro ⟨o, ho, hoa⟩
      obtain ⟨b, hb, hbo⟩ := right o ho
      exact ⟨b, hb, hbo.trans hoa⟩
  · clear c2 c4 ha h left right
    induction k1 with
    | nil => exact .nil
    | cons g1 g2 ih =>
      rename_i o a os bs
      rw [List.pairwise_cons] at c3 ⊢
      refine ⟨fun b hb hab => ?_, ih c3.2⟩
      have : ∃ q ∈ os, C55.Alike b q := by
        clear ih c3
        induction g2 with
        | nil => cases hb
        | cons q1 q2 ih =>
          rcases List.mem_cons.1 hb with rfl | hb
          · exact ⟨_, by simp, q1.2⟩
          · obtain ⟨q, hq, hq'⟩ := ih hb
            exact ⟨q, List.mem_cons_of_mem _ hq, hq'⟩
      obtain ⟨q, hq, hbq⟩ := this
      exact c3.1 q hq (g1.2.symm.trans (hab.trans hbq))

end Lgr.Props.C140
