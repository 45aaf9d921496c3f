/-
The texts that describe activated terms and fuzzy sets.
-/
import Verif.Model.Fll

namespace FL

variable {S : Type} [ScalarText S]

namespace Activated

/-- `Activated::toString`, src/term/Activated.cpp:69-80.  Simplified: the term is never null. -/
def toString (a : Activated S) : Str :=
  match a.implication with
  | some k => k.className ++ cs! "(" ++ ScalarText.str a.degree ++ cs! "," ++ a.term.name ++ cs! ")"
  | none => cs! "(" ++ ScalarText.str a.degree ++ cs! "*" ++ a.term.name ++ cs! ")"

/-- `Activated::parameters`, src/term/Activated.cpp:58-63 -/
def parameters (a : Activated S) : Str :=
  ScalarText.str a.degree ++ cs! " " ++ FllExporter.tnorm a.implication ++ cs! " " ++ FllExporter.term a.term

/-- `FllExporter::toString(const Term*)`, src/imex/FllExporter.cpp:162-170, on an activated term: its parameters are
never empty -/
def exported (a : Activated S) : Str :=
  Op.join [cs! "term:", Op.validName a.term.name, cs! "Activated", a.parameters] (cs! " ")

end Activated

namespace Aggregated

/-- `Aggregated::toString`, src/term/Aggregated.cpp:178-192 -/
def toString (g : Aggregated S) : Str :=
  match g.aggregation with
  | some k => g.name ++ cs! ": " ++ cs! "Aggregated" ++ cs! " " ++ k.className ++ cs! "["
      ++ Op.join (g.terms.map Activated.toString) (cs! ",") ++ cs! "]"
  | none => g.name ++ cs! ": " ++ cs! "Aggregated" ++ cs! " " ++ cs! "["
      ++ Op.join (g.terms.map Activated.toString) (cs! "+") ++ cs! "]"

/-- `Aggregated::parameters`, src/term/Aggregated.cpp:160-168 -/
def parameters (g : Aggregated S) : Str :=
  FllExporter.snorm g.aggregation ++ cs! " " ++ ScalarText.str g.minimum ++ cs! " " ++ ScalarText.str g.maximum
    ++ g.terms.flatMap fun a => cs! " " ++ a.exported

end Aggregated
end FL
