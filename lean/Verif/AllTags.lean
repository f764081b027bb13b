import Verif.DocXml

/-!
# `LGR.all_tags` and `LGR.get_tag_classes`, `lgr/core.py` 1429-1438, 1494-1505
-/

namespace Lgr.AllTags
open Lgr

/-- `lgr/core.py` 1434-1437, 1502-1504: the tag of a name of `classes_lookup`, if it is the one of a tag class. -/
def tagOf (name : String) : Option String :=
  if Cls.tagPrefix.toList.isPrefixOf name.toList then some (String.ofList (name.toList.drop Cls.tagPrefix.toList.length)) else none

/-- `lgr/core.py` 1429-1438; `names` are the keys of `classes_lookup`. -/
def allTags (names : List String) : List String := names.filterMap tagOf

/-- One turn of the loop of `get_tag_classes`, `lgr/core.py` 1503-1504. -/
def classStep {β : Type} (out : List (String × β)) (p : String × β) : List (String × β) :=
  match tagOf p.1 with
  | some t => dset out t p.2
  | none => out

/-- `lgr/core.py` 1494-1505. -/
def getTagClasses {β : Type} (lookup : List (String × β)) : List (String × β) := lookup.foldl classStep []

/-- `classes_lookup` of an LGR without named classes: the tag classes with their code points. -/
def lookupOf (g : LGR) : List (String × List Nat) := g.tagCls.map (fun p => (Cls.tagPrefix ++ p.1, p.2))

end Lgr.AllTags
