/-
Factories (fuzzylite/factory/ConstructionFactory.h, fuzzylite/factory/CloningFactory.h).
-/
import Verif.Model.Formula

namespace FL

/-! ### std::map with string keys -/
namespace SMap

/-- `std::less<std::string>`: lexicographic order of the characters as unsigned numbers -/
def before : Str → Str → Bool
  | _, [] => false
  | [], _ :: _ => true
  | a :: as, b :: bs => decide (a.toNat < b.toNat) || (a == b && before as bs)

variable {V : Type}

/-- `map[key] = value`; the entries are kept in the order of the keys -/
def assign (k : Str) (v : V) : List (Str × V) → List (Str × V)
  | [] => [(k, v)]
  | (k', v') :: m =>
    if before k k' then (k, v) :: (k', v') :: m
    else if before k' k then (k', v') :: assign k v m
    else (k, v) :: m

/-- `map.find(key)` -/
def find (k : Str) : List (Str × V) → Option V
  | [] => none
  | (k', v') :: m => if k' = k then some v' else find k m

/-- `map.erase(map.find(key))` -/
def erase (k : Str) : List (Str × V) → List (Str × V)
  | [] => []
  | (k', v') :: m => if k' = k then m else (k', v') :: erase k m

end SMap

/-! ### ConstructionFactory -/

/-- `ConstructionFactory<T>`, fuzzylite/factory/ConstructionFactory.h:40-58: names and constructors,
where `none` is the null pointer. -/
structure ConstructionFactory (C : Type) where
  name : Str
  constructors : List (Str × Option C)

namespace ConstructionFactory
variable {C : Type}

/-- fuzzylite/factory/ConstructionFactory.h:132-133 -/
def new (name : Str) : ConstructionFactory C := ⟨name, []⟩

/-- `registerConstructor`, fuzzylite/factory/ConstructionFactory.h:143-146 -/
def register (f : ConstructionFactory C) (key : Str) (c : Option C) : ConstructionFactory C :=
  { f with constructors := SMap.assign key c f.constructors }

/-- `deregisterConstructor`, fuzzylite/factory/ConstructionFactory.h:148-153 -/
def deregister (f : ConstructionFactory C) (key : Str) : ConstructionFactory C :=
  match SMap.find key f.constructors with
  | some _ => { f with constructors := SMap.erase key f.constructors }
  | none => f

/-- `hasConstructor`, fuzzylite/factory/ConstructionFactory.h:155-159 -/
def has (f : ConstructionFactory C) (key : Str) : Bool := (SMap.find key f.constructors).isSome

/-- `getConstructor`, fuzzylite/factory/ConstructionFactory.h:161-169 -/
def get (f : ConstructionFactory C) (key : Str) : Option C :=
  match SMap.find key f.constructors with
  | some c => c
  | none => none

/-- `constructObject`, fuzzylite/factory/ConstructionFactory.h:171-182: the constructor that makes
the object; `none` is a null pointer returned.  Simplified: the object made by a constructor is not
modelled. -/
def construct (f : ConstructionFactory C) (key : Str) : Except Err (Option C) :=
  match SMap.find key f.constructors with
  | some (some c) => .ok (some c)
  | some none => .ok none
  | none => .error .outOfRange

/-- `available`, fuzzylite/factory/ConstructionFactory.h:184-193 -/
def available (f : ConstructionFactory C) : List Str := f.constructors.map Prod.fst

end ConstructionFactory

/-! ### CloningFactory -/

/-- Dynamic memory: the object at each address, if it is allocated. -/
structure Memory (T : Type) where
  next : Nat
  cells : Nat → Option T

namespace Memory
variable {T : Type}

def empty : Memory T := ⟨0, fun _ => none⟩

/-- `new` -/
def alloc (m : Memory T) (x : T) : Memory T × Nat :=
  (⟨m.next + 1, fun p => if p = m.next then some x else m.cells p⟩, m.next)

/-- `delete p`; `none` is undefined behaviour -/
def delete (m : Memory T) (p : Nat) : Option (Memory T) :=
  match m.cells p with
  | some _ => some ⟨m.next, fun q => if q = p then none else m.cells q⟩
  | none => none

/-- `p->clone()`; `none` is undefined behaviour -/
def clone (m : Memory T) (p : Nat) : Option (Memory T × Nat) :=
  match m.cells p with
  | some x => some (m.alloc x)
  | none => none

end Memory

/-- `CloningFactory<T*>`, fuzzylite/factory/CloningFactory.h:41-44: names and addresses of owned
objects, where `none` is the null pointer. -/
structure CloningFactory where
  name : Str
  objects : List (Str × Option Nat)

namespace CloningFactory
variable {T : Type}

/-- fuzzylite/factory/CloningFactory.h:131-132 -/
def new (name : Str) : CloningFactory := ⟨name, []⟩

/-- `registerObject`, fuzzylite/factory/CloningFactory.h:158-161: a previous object of the same name
is neither deleted nor kept. -/
def register (f : CloningFactory) (key : Str) (p : Option Nat) : CloningFactory :=
  { f with objects := SMap.assign key p f.objects }

/-- `deregisterObject`, fuzzylite/factory/CloningFactory.h:163-171; `none` is undefined behaviour. -/
def deregister (m : Memory T) (f : CloningFactory) (key : Str) : Option (Memory T × CloningFactory) :=
  match SMap.find key f.objects with
  | some (some p) => (m.delete p).map fun m => (m, { f with objects := SMap.erase key f.objects })
  | some none => some (m, { f with objects := SMap.erase key f.objects })
  | none => some (m, f)

/-- `hasObject`, fuzzylite/factory/CloningFactory.h:173-177 -/
def has (f : CloningFactory) (key : Str) : Bool := (SMap.find key f.objects).isSome

/-- `getObject`, fuzzylite/factory/CloningFactory.h:179-187 -/
def get (f : CloningFactory) (key : Str) : Option Nat :=
  match SMap.find key f.objects with
  | some p => p
  | none => none

/-- `cloneObject`, fuzzylite/factory/CloningFactory.h:189-198: the memory afterwards and the address
of the new object, or null; `none` is undefined behaviour. -/
def cloneObject (m : Memory T) (f : CloningFactory) (key : Str) : Option (Except Err (Memory T × Option Nat)) :=
  match SMap.find key f.objects with
  | some (some p) => (m.clone p).map fun r => .ok (r.1, some r.2)
  | some none => some (.ok (m, none))
  | none => some (.error .outOfRange)

/-- `available`, fuzzylite/factory/CloningFactory.h:200-209 -/
def available (f : CloningFactory) : List Str := f.objects.map Prod.fst

/-- the loop of `clear` -/
def deleteAll : Memory T → List (Str × Option Nat) → Option (Memory T)
  | m, [] => some m
  | m, (_, some p) :: l => (m.delete p).bind fun m => deleteAll m l
  | m, (_, none) :: l => deleteAll m l

/-- `clear`, fuzzylite/factory/CloningFactory.h:221-230 (also the destructor); `none` is undefined
behaviour. -/
def clear (m : Memory T) (f : CloningFactory) : Option (Memory T × CloningFactory) :=
  (deleteAll m f.objects).map fun m => (m, { f with objects := [] })

/-- the loop of `copyFrom` over the objects of the other factory -/
def copyLoop : Memory T → CloningFactory → List (Str × Option Nat) → Option (Memory T × CloningFactory)
  | m, f, [] => some (m, f)
  | m, f, (k, some p) :: l =>
    (m.clone p).bind fun r => (deregister r.1 f k).bind fun s => copyLoop s.1 (s.2.register k (some r.2)) l
  | m, f, (k, none) :: l =>
    (deregister m f k).bind fun s => copyLoop s.1 (s.2.register k none) l

/-- copy constructor and `clone`, fuzzylite/factory/CloningFactory.h:134-137, 232-250 -/
def copy (m : Memory T) (other : CloningFactory) : Option (Memory T × CloningFactory) :=
  copyLoop m ⟨other.name, []⟩ other.objects

/-- `operator=` between different factories, fuzzylite/factory/CloningFactory.h:139-146, 232-245 -/
def assignFrom (m : Memory T) (f other : CloningFactory) : Option (Memory T × CloningFactory) :=
  (clear m f).bind fun s => copyLoop s.1 { s.2 with name := other.name } other.objects

end CloningFactory
end FL
