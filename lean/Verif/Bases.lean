import Verif.Types

/-!
# Which template arguments the classes accept

The base classes of the tables and buffers (dense_table.hpp 67-71, swiss_table.hpp 454-455, 613-614, 744-745), the class that stores empty objects
(table_common.hpp 12-83), and the allocators that the nodes are constructed and destroyed with (table_common.hpp 219-293, 314-456).  Two rules of
the language are used: a class is no direct base of the same class twice, and a reference to an object of one class type does not bind to an object
of an unrelated one.

Simplified: hash functions, comparisons and allocators are classes without further relation to each other; requirements of the standard on each of
them alone are taken to hold; an allocator is an instance of a class template that is rebound by replacing its argument, the way
`std::allocator_traits` does it without a member `rebind`.
-/

namespace Tpp.Types

/-- What an allocator allocates: a type of the program, or a node, a control byte or an array of chain heads of the library (swiss_table.hpp 355-359,
dense_table.hpp 25-29, 63-64). -/
inductive Elem
  | user (t : Ty)
  | node
  | metaByte
  | positions
  deriving DecidableEq

/-- An allocator type: its class template and what it allocates. -/
structure AllocTy where
  family : Nat
  value : Elem
  deriving DecidableEq

/-- `std::allocator_traits<A>::rebind_alloc<T>` (as used in swiss_table.hpp 358-359, dense_table.hpp 63-64, table_common.hpp 219, 314). -/
def AllocTy.rebind (a : AllocTy) (e : Elem) : AllocTy := { a with value := e }

/-- The kinds of tables. -/
inductive Kind
  | sparse
  | stable
  | dense
  deriving DecidableEq

/-- The arguments of `swiss_table` and `dense_table` as the containers name them (sparse_map.hpp 52, 650, sparse_set.hpp 37, 352, stable_map.hpp 41,
685, stable_set.hpp 26, 373, dense_map.hpp 58, 711, dense_set.hpp 44, 405, dense_multimap.hpp 63, dense_multiset.hpp 49). -/
structure Inst where
  kind : Kind
  ordered : Bool
  /-- `I` -/
  insert : Ty
  /-- `V` -/
  value : Ty
  /-- `Kh` -/
  hash : Ty
  /-- `Kc` -/
  cmp : Ty
  /-- `Alloc` -/
  alloc : AllocTy

/-- The classes that occur as base classes: `empty_base<T>` for a class of the program, an allocator or a link (table_common.hpp 21-22, 50-51; for
different `T` these are different classes), and `swiss_node_traits` (swiss_table.hpp 362-371). -/
inductive Base
  | ofUser (t : Ty)
  | ofAlloc (a : AllocTy)
  | ofLink (ordered : Bool)
  | nodeTraits
  deriving DecidableEq

/-- The direct base classes of `dense_table` and `swiss_table` (dense_table.hpp 67-71, swiss_table.hpp 744-745). -/
def Inst.tableBases (x : Inst) : List Base :=
  match x.kind with
  | .dense => [.ofAlloc (x.alloc.rebind .positions), .ofAlloc (x.alloc.rebind .node), .ofUser x.hash, .ofUser x.cmp, .ofLink x.ordered]
  | _ => [.nodeTraits, .ofUser x.hash, .ofUser x.cmp, .ofLink x.ordered]

/-- The direct base classes of the buffer: of the one with separate arrays (swiss_table.hpp 454-455) and of the combined one (613-614).  Dense tables
have no such class. -/
def Inst.bufferBases (x : Inst) (combine : Bool) : List Base :=
  match x.kind with
  | .dense => []
  | _ => if combine then [.ofAlloc (x.alloc.rebind .node)] else [.ofAlloc (x.alloc.rebind .metaByte), .ofAlloc (x.alloc.rebind .node)]

/-- What the nodes hold: `stable_node<V, …>`, otherwise `packed_node<I, …>` (swiss_table.hpp 355, dense_table.hpp 29). -/
def Inst.payload (x : Inst) : Ty :=
  match x.kind with
  | .stable => x.value
  | _ => x.insert

/-- `allocator_type` of the nodes (table_common.hpp 219, 314). -/
def Inst.valueAlloc (x : Inst) : AllocTy := x.alloc.rebind (.user x.payload)

/-- The allocator that the table makes to construct and destroy a node with: `value_allocator` (swiss_table.hpp 770, 1290, 1321, 1363, 1465, 1504,
1524), `allocator_type` in the dense table (dense_table.hpp 553, 559, 842, 879, 903). -/
def Inst.passed (x : Inst) : AllocTy :=
  match x.kind with
  | .dense => x.alloc
  | _ => x.valueAlloc

/-- `construct` can be called: `packed_node::construct` and `stable_node::construct` take an `allocator_type &` (table_common.hpp 225, 229, 235, 419,
425, 446), `bucket_node::construct` of the dense table an `Alloc &` that it passes on to the former (dense_table.hpp 32-45). -/
def Inst.constructs (x : Inst) : Bool :=
  match x.kind with
  | .dense => decide (x.passed = x.alloc) && decide (x.alloc = x.valueAlloc)
  | _ => decide (x.passed = x.valueAlloc)

/-- `destroy` can be called: it takes an `A &` (`Alloc`) and hands it to `allocator_traits<allocator_type>::destroy`, which takes an `allocator_type &`
(table_common.hpp 258, 465-473). -/
def Inst.destroys (x : Inst) : Bool := decide (x.passed = x.alloc) && decide (x.alloc = x.valueAlloc)

/-- The classes and the functions that every use of a container needs (a destructor at least) compile, as far as base classes and allocators are
concerned. -/
def Inst.compiles (x : Inst) (combine : Bool) : Bool :=
  decide x.tableBases.Nodup && decide (x.bufferBases combine).Nodup && x.constructs && x.destroys

/-- `const k`; a constant type stays as it is. -/
def constOf : Ty → Ty
  | .const t => .const t
  | t => .const t

/-- The family of an allocator type of the program: `std::allocator<T>` is family 0. -/
def allocOf : Ty → Option AllocTy
  | .alloc t => some ⟨0, .user t⟩
  | _ => none

/-- The table of a map type (insert_type and value_type: sparse_map.hpp 33-34, stable_map.hpp 36-37, dense_map.hpp 34-35, dense_multimap.hpp 39-40). -/
def MapTy.inst (kind : Kind) (ordered : Bool) (t : MapTy) (a : AllocTy) : Inst where
  kind
  ordered
  insert := .pair t.key t.mapped
  value := .pair (constOf t.key) t.mapped
  hash := t.hash
  cmp := t.cmp
  alloc := a

/-- The table of a set type. -/
def SetTy.inst (kind : Kind) (ordered : Bool) (t : SetTy) (a : AllocTy) : Inst where
  kind
  ordered
  insert := t.key
  value := t.key
  hash := t.hash
  cmp := t.cmp
  alloc := a

/-! ## Pointers to map elements -/

/-- `packed_map_ptr(K *first, M *second)` (table_common.hpp 801): binds references to what the pointers point to; `none` is a null pointer, and no
result means that one is dereferenced. -/
def packedPtr {α β : Type} (first : Option α) (second : Option β) : Option (α × β) :=
  match first, second with
  | some a, some b => some (a, b)
  | _, _ => none

/-- `packed_map_ptr()` (table_common.hpp 797). -/
def packedPtrDefault {α β : Type} : Option (α × β) := packedPtr (none : Option α) (none : Option β)

/-- `packed_map_ptr<K, M>(packed_map_ptr<K, U>)` takes part in overload resolution: the condition of its `enable_if` (table_common.hpp 798), where
`refConv` says whether a reference to `U` converts to a reference to `M`. -/
def ptrConvEnabled (refConv : Ty → Ty → Bool) (m u : Ty) : Bool := !decide (u = m) && refConv u m

/-- Its definition compiles (table_common.hpp 799): it names the private member `m_ref` of `packed_map_ptr<K, U>` from a member of
`packed_map_ptr<K, M>`, which is allowed only if these are the same class (its only friend is another, 788), and passes the references to the
constructor of two pointers; `toPtr t` says whether an object of type `t` converts to a pointer to `t`. -/
def ptrConvCompiles (toPtr : Ty → Bool) (k m u : Ty) : Bool := decide (u = m) && toPtr k && toPtr m

end Tpp.Types
