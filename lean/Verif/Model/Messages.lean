import Verif.Model.Types
/-
Model of the messages and the range accessors of `src/types.c`.
-/
namespace CCC

/-- The array `result_msgs`, src/types.c:7-18, indexed by `ccc_result`; `none` is a read outside of it. -/
def resultMsgs (i : Nat) : Option String :=
  ["",
   "A container performed an operation requiring new allocation of memory, but no allocation function was provided upon initialization.",
   "A container performed an operation requiring new allocation of memory, but the allocator function provided on initialization failed.",
   "A container function received bad arguments such as NULL pointers or arguments that cannot be processed in the context of an operation."][i]?

/-- The value of a `ccc_result`, ccc/types.h:60-72. -/
def Res.code : Res → Nat
  | .ok => 0 | .noAlloc => 1 | .memErr => 2 | .inputErr => 3

/-- `ccc_result_msg`, src/types.c:74-82.  The argument is any value of the type of the enumeration, an unsigned integer
type, as all enumerators are non-negative. -/
def resultMsg (res : Nat) : Option String :=
  if res ≥ 4 then some "error: invalid result provided no message exists" else resultMsgs res

/-- `ccc_entry_status_msg`, src/types.c:94-124. -/
def statusMsg (status : Nat) : String :=
  if status = Stat.vacant then "entry is Vacant with no errors"
  else if status = Stat.occupied then "entry is Occupied and non-NULL"
  else if status = Stat.insertError then "entry should have been inserted but encountered an error"
  else if status = Stat.searchError then "entry encountered an error while searching for a key"
  else if status = Stat.deleteError then "entry encountered an error while trying to delete"
  else if status = Stat.inputError then "entry could not be produced due to bad input to function"
  else if status = Stat.noUnwrap then "entry shall not be unwrapped by user to protect container"
  else "error: entry encountered an unknown combination of flags"

/-- `struct ccc_range_u_`, ccc/impl/impl_types.h:34-46. -/
structure Range where
  b : Slot
  e : Slot

/-- `ccc_begin_range`, `ccc_rbegin_rrange`, src/types.c:50-54, 62-66; `none` is a NULL pointer to the range. -/
def Range.begin_ (r : Option Range) : Slot := match r with | some r => r.b | none => none
/-- `ccc_end_range`, `ccc_rend_rrange`, src/types.c:56-60, 68-72. -/
def Range.end_ (r : Option Range) : Slot := match r with | some r => r.e | none => none

end CCC
