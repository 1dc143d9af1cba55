/-!
Model of `src/jaqmc/data.py` (structured walker data), `src/jaqmc/utils/array.py` (channel
splitting) and `src/jaqmc/utils/chunked_vmap.py` (chunked evaluation).
-/
namespace Jaqmc.Data

/-- A `Data` instance: its fields in declaration order (data.py:17-34). -/
abbrev Record (V : Type) := List (String × V)

/-- Python exceptions raised in these modules. -/
inductive Err where
  | keyError
  | typeError
  | valueError
  | zeroDivision
  deriving DecidableEq

variable {V : Type}

/-- `field_names`, data.py:31-34. -/
def fieldNames (r : Record V) : List String := r.map Prod.fst

/-- `Data.subset`, data.py:36-58.  The result is a dict comprehension over `fields`; a repeated name
keeps its first position, which is irrelevant for `merge`. -/
def subset (r : Record V) (fields : List String) : Except Err (List (String × V)) :=
  if fields.all (fun k => (fieldNames r).contains k) then
    .ok (fields.filterMap (fun k => (r.lookup k).map (fun v => (k, v))))
  else .error .keyError

/-- `dataclasses.replace(self, **values)`: the fields named in `values` are replaced. -/
def replace (r : Record V) (values : List (String × V)) : Record V :=
  r.map (fun e => (e.1, (values.lookup e.1).getD e.2))

/-- `Data.merge`, data.py:60-82. -/
def merge (r : Record V) (values : List (String × V)) : Except Err (Record V) :=
  if values.all (fun e => (fieldNames r).contains e.1) then .ok (replace r values)
  else .error .keyError

/-! ### Batched data -/

/-- A pytree leaf as `check` sees it: a concrete array of walkers or of anything (its rows along the
leading axis), or a tracer / non-array. -/
inductive Leaf (A : Type) where
  | array (rows : List A)
  | other

/-- `BatchedData`: a data object, each field a list of leaves, and the names of the batched fields
(data.py:85-107). -/
structure Batched (A : Type) where
  data : Record (List (Leaf A))
  batchedFields : List String

variable {A : Type}

/-- `jax.tree.leaves(self.data[key])`. -/
def leavesOf (b : Batched A) (key : String) : List (Leaf A) := (b.data.lookup key).getD []

/-- Leading size of an array leaf. -/
def leadingSize : Leaf A → Nat
  | .array rows => rows.length
  | .other => 0

/-- `batch_size`, data.py:144-158.  A batched field without leaves makes `[0]` fail (`IndexError`);
this is modelled by size 0 and excluded by hypothesis where it matters. -/
def batchSize (b : Batched A) : Nat :=
  match b.batchedFields with
  | [] => 0
  | k :: _ => match leavesOf b k with
    | [] => 0
    | l :: _ => leadingSize l

/-- `BatchedData.check`, data.py:109-142.  In the error branch for unknown fields the message itself
is built with `set(...) - list`, which raises `TypeError` before `KeyError` can be raised
(data.py:125-129). -/
def check (b : Batched A) : Except Err Unit :=
  if ¬ b.batchedFields.all (fun k => (fieldNames b.data).contains k) then .error .typeError
  else if (b.data.map Prod.snd).flatten.any (fun l => match l with | .other => true | .array _ => false)
    then .ok ()
  else if b.batchedFields.all (fun k => (leavesOf b k).all (fun l => leadingSize l == batchSize b))
    then .ok ()
  else .error .valueError

/-- `jnp.broadcast_to(x, (batch_size, *x.shape))`: `n` copies.  Field values after full batching are
lists of walker values. -/
def broadcast {X : Type} (n : Nat) (x : X) : List X := List.replicate n x

/-- A field of a batch, for the functions below: one value per walker, or one shared value. -/
inductive Field (X : Type) where
  | batched (perWalker : List X)
  | shared (x : X)

/-- `fully_batched_data`, data.py:229-257, on one field. -/
def fullyBatch {X : Type} (n : Nat) : Field X → List X
  | .batched xs => xs
  | .shared x => broadcast n x

/-- What `vmap` with `vmap_axis` (data.py:160-180) passes to the function for walker `i`: axis 0
for batched fields, `None` for shared ones. -/
def walkerView {X : Type} (i : Nat) : Field X → Option X
  | .batched xs => xs[i]?
  | .shared x => some x

/-! ### Channel splitting, utils/array.py -/

/-- `itertools.accumulate`. -/
def accumulate (acc : Nat) : List Nat → List Nat
  | [] => []
  | n :: ns => (acc + n) :: accumulate (acc + n) ns

/-- `array_partitions`, array.py:10-21. -/
def arrayPartitions (sizes : List Nat) : List Nat := (accumulate 0 sizes).dropLast

/-- `jnp.split(x, indices)`: consecutive slices. -/
def splitAt {X : Type} (x : List X) (prev : Nat) : List Nat → List (List X)
  | [] => [x.drop prev]
  | i :: is => (x.drop prev).take (i - prev) :: splitAt x i is

/-- `split_nonempty_channels`, array.py:24-46. -/
def splitChannels {X : Type} (x : List X) (sizes : List Nat) : Except Err (List (List X)) :=
  if x.length ≠ sizes.sum then .error .valueError
  else if (sizes.filter (fun n => decide (0 < n))).length ≤ 1 then .ok [x]
  else .ok (splitAt x 0 (arrayPartitions (sizes.filter (fun n => decide (0 < n)))))

/-! ### Chunked evaluation, utils/chunked_vmap.py -/

/-- An input leaf with its axis specification: mapped along an axis, or passed unchanged. -/
inductive Arg (X : Type) where
  | mapped (xs : List X)
  | unmapped (x : X)

variable {X Y Z : Type}

/-- `_mapped_axis_sizes`, chunked_vmap.py:115-141. -/
def mappedSizes : List (Arg X) → List Nat
  | [] => []
  | .mapped xs :: as => xs.length :: mappedSizes as
  | .unmapped _ :: as => mappedSizes as

/-- `_validate_batch_sizes`, chunked_vmap.py:144-159. -/
def validateSizes : List Nat → Except Err Nat
  | [] => .error .valueError
  | n :: ns => if ns.all (fun m => m == n) then .ok n else .error .valueError

/-- `lax.dynamic_slice_in_dim(x, start, size)`: the start index is clamped so that the slice fits. -/
def dynamicSlice (xs : List X) (start size : Nat) : List X :=
  (xs.drop (min start (xs.length - size))).take size

/-- `_take_chunk_from_args`, chunked_vmap.py:162-179. -/
def takeChunk (start size : Nat) : Arg X → Arg X
  | .mapped xs => .mapped (dynamicSlice xs start size)
  | .unmapped x => .unmapped x

/-- What a mapped function sees of each argument for element `i`. -/
def argAt (i : Nat) : Arg X → Option X
  | .mapped xs => xs[i]?
  | .unmapped x => some x

/-- `jax.vmap(fun)` for an output mapped on its leading axis, given the batch size: the function is
applied to element `0, 1, …, n-1`.  (Axis positions are abstracted; see DESIGN.md.) -/
def vmapMapped (f : List (Option X) → Y) (n : Nat) (args : List (Arg X)) : List Y :=
  (List.range n).map (fun i => f (args.map (argAt i)))

/-- The arguments an unmapped output (`out_axes=None`) may depend on. -/
def unmappedOnly : List (Arg X) → List X
  | [] => []
  | .mapped _ :: as => unmappedOnly as
  | .unmapped x :: as => x :: unmappedOnly as

/-- A function with one mapped output and one unmapped output, as `vmap` evaluates it. -/
structure Fun (X Y Z : Type) where
  mapped : List (Option X) → Y
  unmapped : List X → Z

/-- `jax.vmap` on a function with both kinds of outputs. -/
def vmap (f : Fun X Y Z) (n : Nat) (args : List (Arg X)) : List Y × Z :=
  (vmapMapped f.mapped n args, f.unmapped (unmappedOnly args))

/-- `_chunked_vmap_wrapped`, chunked_vmap.py:46-101, with `_restore_vmap_output_leaf`
(chunked_vmap.py:182-214).  `chunk = none` delegates to `vmap`. -/
def chunkedVmap (f : Fun X Y Z) (chunk : Option Nat) (args : List (Arg X)) : Except Err (List Y × Z) :=
  match validateSizes (mappedSizes args) with
  | .error e => .error e
  | .ok n =>
    match chunk with
    | none => .ok (vmap f n args)
    | some c =>
      if n ≤ c then .ok (vmap f n args)
      else if c = 0 then .error .zeroDivision
      else
        let numChunks := n / c
        let remainder := n % c
        let chunks := (List.range numChunks).map
          (fun j => vmap f c (args.map (takeChunk (j * c) c)))
        let rest := vmap f remainder (args.map (takeChunk (numChunks * c) remainder))
        match chunks with
        | [] => .error .valueError
        | first :: _ => .ok ((chunks.map Prod.fst).flatten ++ rest.1, first.2)

end Jaqmc.Data
