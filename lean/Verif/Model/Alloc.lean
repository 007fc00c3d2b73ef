import Verif.Spec.Api
/-
Calls with any memory allocator, that may give the address of a deleted object to a new one.
-/
namespace BletArgs
variable {D : Type}

/-- A call made when the next element of the list `arguments_` (`src/args.cpp:255`, `arguments_.push_back`) would be put at
the address `n`, and the next `new Argument` (`src/args.cpp:226,250`, and the `new` of
`include/blet/args/argument.h:559-603`, `dest`) would return the address `o`. No call creates more than one object.
The other definitions of the model take the addresses from two counters, which is the particular case of an allocator that
never uses an address again. -/
def stepAt (scan : Str → Option D) (n o : Nat) (st : State D) (op : Op) : State D × Res Unit :=
  step scan { st with nextNode := n, nextObj := o } op

end BletArgs
