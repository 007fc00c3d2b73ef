import Verif.Spec.Api
/-
Specification: the calls that change nothing of what the usage text shows.
-/
namespace BletArgs.Spec

/-- The calls that change nothing of what the usage text shows: those of `parseArguments`, the ones that set validators,
destinations, elements, the text of the version and the modes, and changes in the objects of the user. -/
def Op.quiet : Op → Bool
  | .valid .. | .dest .. | .behave .. | .edit .. | .setVersion _ | .setAlternative _ | .setStrict _ | .setHelpException _
  | .setVersionException _ | .parse _ => true
  | _ => false

end BletArgs.Spec
