import Verif.Action

/-!
# Variant generation: `lgr/core.py` 1674-1875, `lgr/mixed_scripts_variant_filter.py`

Generators are modelled as lists: a call that raises part-way raises, and what it yielded before
is not represented.
-/

namespace Lgr

/-- `lgr/mixed_scripts_variant_filter.py` 9-27: `get_permitted_scripts` (a set of scripts, as a
list of which only membership counts). -/
def permittedScripts (base : List String) : List String :=
  let p1 :=
    if "Katakana" ∈ base ∨ "Hiragana" ∈ base then base ++ ["Han", "Latin", "Katakana", "Hiragana"]
    else if "Hangul" ∈ base then base ++ ["Latin"]
    else base
  if "Han" ∈ base then p1 ++ ["Latin"] else p1

/-- `lgr/mixed_scripts_variant_filter.py` 30-47 and 50-69: a filter is its base scripts and its
other scripts (empty for a `BaseMixedScriptsVariantFilter`, whose `cp_in_other_scripts` is false). -/
structure ScriptFilter where
  base : List String := []
  other : List String := []
  deriving DecidableEq, Repr, Inhabited

/-- `lgr/mixed_scripts_variant_filter.py` 51: `IGNORED_SCRIPTS`. -/
def ignoredScripts : List String := ["Common", "Inherited"]

namespace FullEnv
variable (env : FullEnv)

/-- `lgr/mixed_scripts_variant_filter.py` 36-41: `cp_in_scripts`. -/
def cpInScripts (cp : Seq) (scripts : List String) : Bool :=
  cp.all (fun x => decide (env.script x ∈ scripts))

/-- `lgr/mixed_scripts_variant_filter.py` 61-67: `_get_base_scripts`. -/
def baseScripts (label : Seq) : List String :=
  permittedScripts ((label.map env.script).filter (fun s => decide (s ∉ ignoredScripts)))

/-- `lgr/mixed_scripts_variant_filter.py` 69-72: `get_filter_for_other_script`. -/
def otherFilter (script : String) : ScriptFilter := { base := permittedScripts [script] }

/-- Scripts of the variants of the characters with variants that start with `c` and are a prefix of
`cur`, lines 89-103. -/
def scriptsForChar (chars : List CharObj) (cur : Seq) : List String :=
  ((chars.filter (fun ch => ch.isPrefixOf cur)).flatMap
    (fun ch => ch.getVariants.flatMap (fun v => v.cp.map env.script))).filter
      (fun s => decide (s ∉ ignoredScripts))

/-- The loop of `lgr/mixed_scripts_variant_filter.py` 85-109. `current_label` only advances when
the code point starts some entry (`continue` at line 93 skips line 109). -/
def variantScriptsLoop (r : Repertoire) : Option (List String) → Seq → Seq → Option (List String)
  | acc, _, [] => acc
  | acc, cur, c :: cs =>
    match r.charsFromPrefix c (onlyVariants := true) with
    | .error _ => variantScriptsLoop r acc cur cs
    | .ok chars =>
      let ss := env.scriptsForChar chars cur
      let acc' := match acc with
        | none => ss
        | some l => l.filter (fun s => decide (s ∈ ss))
      variantScriptsLoop r (some acc') (cur.drop 1) cs

/-- `lgr/mixed_scripts_variant_filter.py` 53-57: constructor of `MixedScriptsVariantFilter`. -/
def mkFilter (r : Repertoire) (label : Seq) : ScriptFilter :=
  let base := env.baseScripts label
  { base := base
    other := ((env.variantScriptsLoop r none label label).getD []).filter
      (fun s => decide (s ∉ base)) }

/-- The characters of `cs` that are a prefix of `label` and in valid context,
`lgr/core.py` 1687-1706. (`label_prefix + prefix.cp + label[len(prefix):]` is
`label_prefix + label` since `prefix` is a prefix of `label`; kept as in the code.) -/
def prefixLoop (label pfx : Seq) : List CharObj → Except Err (List CharObj)
  | [] => .ok []
  | c :: cs =>
    if !c.isPrefixOf label then prefixLoop label pfx cs
    else
      match env.testChar c (pfx ++ c.cp ++ label.drop c.len) pfx.length with
      | .error e => .error e
      | .ok b =>
        match prefixLoop label pfx cs with
        | .error e => .error e
        | .ok l => .ok (if b then c :: l else l)

/-- `lgr/core.py` 1767-1791: the characters tried at the start of a non-empty label `x :: xs`. -/
def samePrefix (r : Repertoire) (x : Nat) (xs pfx : Seq) : Except Err (List CharObj) :=
  match r.charsFromPrefix x (onlyVariants := true), r.charsFromPrefix x with
  | .ok withVars, .ok all =>
    match env.prefixLoop (x :: xs) pfx withVars with
    | .error e => .error e
    | .ok l =>
      let l1 := if l = [] then (all.find? (fun c => c.isPrefixOf (x :: xs))).toList else l
      .ok (l1 ++ (l1.filter CharObj.isSequence).flatMap (fun ch =>
        all.filter (fun c => decide (c.len < ch.len) && c.isPrefixOf (x :: xs))))
  | _, _ => .ok []

/-- A permutation of one character: code points, types, is it a variant, filter for the rest. -/
structure Perm where
  cp : Seq
  disp : DispSet
  isVar : Bool
  filter : ScriptFilter
  deriving DecidableEq, Repr, Inhabited

/-- Script decision of `lgr/core.py` 1815-1822 for one variant: `none` to skip it, else the filter
used for the rest of the label. `var.cp[0]` of an empty variant raises (variants are not empty). -/
def scriptChoice (hide first : Bool) (f : ScriptFilter) (vcp : Seq) : Except Err (Option ScriptFilter) :=
  if hide then
    if first && env.cpInScripts vcp f.other then
      match vcp with
      | [] => .error .indexError
      | y :: _ => .ok (some (otherFilter (env.script y)))
    else if !env.cpInScripts vcp f.base then .ok none
    else .ok (some f)
  else .ok (some f)

/-- The loop over the variants of `char`, `lgr/core.py` 1805-1838; `rest` is `label[len(char):]`. -/
def varPerms (hide first : Bool) (f : ScriptFilter) (pfx rest : Seq) :
    List Variant → Except Err (List Perm)
  | [] => .ok []
  | v :: vs =>
    match env.scriptChoice hide first f v.cp with
    | .error e => .error e
    | .ok none => varPerms hide first f pfx rest vs
    | .ok (some f') =>
      match env.testVar v (pfx ++ v.cp ++ rest) pfx.length with
      | .error e => .error e
      | .ok false => varPerms hide first f pfx rest vs
      | .ok true =>
        match varPerms hide first f pfx rest vs with
        | .error e => .error e
        | .ok l => .ok (⟨v.cp, v.type.toList.map some, true, f'⟩ :: l)

/-- `lgr/core.py` 1805-1852: all permutations of `char`. -/
def charPerms (hide first : Bool) (f : ScriptFilter) (pfx rest : Seq) (c : CharObj) :
    Except Err (List Perm) :=
  match env.varPerms hide first f pfx rest c.getVariants with
  | .error e => .error e
  | .ok l =>
    let hasRefl := l.any (fun p => decide (p.cp = c.cp))
    .ok (if !hasRefl && (!hide || first || env.cpInScripts c.cp f.base)
      then ⟨c.cp, [], false, f⟩ :: l else l)

/-- One generated variant label. `chars` lists the code points of the characters or variants it is
made of. -/
structure Gen where
  cps : Seq
  disp : DispSet
  only : Bool
  chars : List Seq
  deriving DecidableEq, Repr, Inhabited

/-- A Python loop yielding several results per element. -/
def flatMapE {α β : Type} (f : α → Except Err (List β)) : List α → Except Err (List β)
  | [] => .ok []
  | a :: l =>
    match f a with
    | .error e => .error e
    | .ok b =>
      match flatMapE f l with
      | .error e => .error e
      | .ok bs => .ok (b ++ bs)

/-- `lgr/core.py` 1854-1864: combine a permutation with a variant of the rest. -/
def Perm.combine (p : Perm) (g : Gen) : Gen :=
  ⟨p.cp ++ g.cps, g.disp ++ p.disp, p.isVar && g.only, p.cp :: g.chars⟩

/-- `lgr/core.py` 1710-1875: `_generate_label_variants` after the set-up of the filter; `fuel` is at
least the length of the label. -/
def genLoop (r : Repertoire) (hide : Bool) :
    Nat → Bool → ScriptFilter → Seq → Bool → Seq → Except Err (List Gen)
  | _, _, _, _, _, [] => .ok []
  | 0, _, _, _, _, _ :: _ => .ok []
  | fuel + 1, first, f, pfx, hasVar, x :: xs =>
    match env.samePrefix r x xs pfx with
    | .error e => .error e
    | .ok cs =>
      flatMapE (fun c =>
        match env.charPerms hide first f pfx ((x :: xs).drop c.len) c with
        | .error e => .error e
        | .ok perms =>
          if (x :: xs).length > c.len then
            flatMapE (fun p =>
              match genLoop r hide fuel false p.filter (pfx ++ p.cp) (p.isVar || hasVar)
                  ((x :: xs).drop c.len) with
              | .error e => .error e
              | .ok gs => .ok (gs.map p.combine)) perms
          else if hasVar || c.hasVariant then
            .ok (perms.map (fun p => ⟨p.cp, p.disp, p.isVar, [p.cp]⟩))
          else .ok []) cs

/-- `lgr/core.py` 1710-1875: `_generate_label_variants(label, hide_mixed_script_variants=hide)`. -/
def genVariants (r : Repertoire) (hide : Bool) (label : Seq) : Except Err (List Gen) :=
  env.genLoop r hide label.length true (if hide then env.mkFilter r label else {}) [] false label

end FullEnv
end Lgr
