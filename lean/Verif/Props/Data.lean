import Verif.Model.Data
/-! # Data containers, channel splitting, chunked evaluation: C15, C16, C17, C42, C53 -/
namespace Jaqmc.Data.Props
open Jaqmc.Data

variable {V A X Y Z : Type}

theorem lookup_mem {r : List (String × V)} {k : String} {v : V} (h : r.lookup k = some v) : (k, v) ∈ r := by
  induction r with
  | nil => simp at h
  | cons e r ih =>
    obtain ⟨k', v'⟩ := e
    by_cases hk : k = k'
    · subst hk; simp at h; simp [h]
    · have : (k == k') = false := by simpa using hk
      simp only [List.lookup, this] at h
      simp [ih h]

theorem mem_lookup {r : List (String × V)} {k : String} {v : V} (hn : (r.map Prod.fst).Nodup)
    (h : (k, v) ∈ r) : r.lookup k = some v := by
  induction r with
  | nil => simp at h
  | cons e r ih =>
    obtain ⟨k', v'⟩ := e
    simp only [List.map_cons, List.nodup_cons] at hn
    rcases List.mem_cons.1 h with h' | h'
    · simp at h'; obtain ⟨rfl, rfl⟩ := h'; simp
    · have hne : k ≠ k' := by
        intro hk; subst hk; exact hn.1 (List.mem_map.2 ⟨(k, v), h', rfl⟩)
      have : (k == k') = false := by simpa using hne
      simp only [List.lookup, this]
      exact ih hn.2 h'

/-- **C15** Merging a subset of a data object back into it gives the object again. -/
theorem c15_roundtrip (r : Record V) (hn : (fieldNames r).Nodup) (fields : List String)
    (s : List (String × V)) (h : subset r fields = .ok s) : merge r s = .ok r := by
  unfold subset at h
  split at h
  next hall =>
    simp at h; subst h
    have hs : ∀ e ∈ fields.filterMap (fun k => (r.lookup k).map (fun v => (k, v))), r.lookup e.1 = some e.2 := by
      intro e he
      obtain ⟨k, hk, hv⟩ := List.mem_filterMap.1 he
      cases hl : r.lookup k with
      | none => rw [hl] at hv; simp at hv
      | some v => rw [hl] at hv; simp at hv; subst hv; exact hl
    unfold merge
    rw [if_pos]
    · congr 1
      unfold replace
      conv => rhs; rw [← List.map_id r]
      apply List.map_congr_left
      intro e he
      obtain ⟨k, v⟩ := e
      cases hl : (fields.filterMap (fun k => (r.lookup k).map (fun v => (k, v)))).lookup k with
      | none => simp
      | some w =>
        have h1 := hs _ (lookup_mem hl)
        rw [mem_lookup hn he] at h1
        simp at h1
        simp [h1]
    · rw [List.all_eq_true]
      intro e he
      have := lookup_mem (hs e he)
      simp [fieldNames]
      exact ⟨_, this⟩
  next => simp at h

/-- **C15** Merging changes exactly the named fields: the field names stay, a named field gets the
given value, every other field keeps its value; an unknown name raises `KeyError`. -/
theorem c15_merge (r : Record V) (hn : (fieldNames r).Nodup) (values : List (String × V)) :
    (∀ r', merge r values = .ok r' →
      fieldNames r' = fieldNames r ∧
      ∀ k ∈ fieldNames r, r'.lookup k = (match values.lookup k with | some v => some v | none => r.lookup k)) ∧
    ((∃ e ∈ values, e.1 ∉ fieldNames r) ↔ merge r values = .error .keyError) := by
  constructor
  · intro r' h
    unfold merge at h
    split at h
    · simp at h; subst h
      have hf : fieldNames (replace r values) = fieldNames r := by
        simp [fieldNames, replace, Function.comp_def]
      refine ⟨hf, fun k hk => ?_⟩
      obtain ⟨e, he, rfl⟩ := List.mem_map.1 hk
      have hmem : (e.1, (values.lookup e.1).getD e.2) ∈ replace r values :=
        List.mem_map.2 ⟨e, he, rfl⟩
      rw [mem_lookup (by rw [← hf] at hn; exact hn) hmem]
      cases values.lookup e.1 with
      | none => simp; exact (mem_lookup hn he).symm
      | some v => rfl
    · simp at h
  · unfold merge
    constructor
    · rintro ⟨e, he, hk⟩
      rw [if_neg]
      intro hall
      rw [List.all_eq_true] at hall
      have := hall e he
      simp only [List.contains_iff_mem] at this
      exact hk this
    · intro h
      split at h
      · simp at h
      next hall =>
        simp only [List.all_eq_true, List.contains_iff_mem, Classical.not_forall] at hall
        obtain ⟨e, he, hk⟩ := hall
        exact ⟨e, he, hk⟩

/-- **C15** A subset has exactly the requested fields with the object's values; an unknown name raises
`KeyError`. -/
theorem c15_subset (r : Record V) (fields : List String) :
    (∀ s, subset r fields = .ok s → s.map Prod.fst = fields ∧ ∀ e ∈ s, r.lookup e.1 = some e.2) ∧
    ((∃ k ∈ fields, k ∉ fieldNames r) ↔ subset r fields = .error .keyError) := by
  constructor
  · intro s h
    unfold subset at h
    split at h
    next hall =>
      simp at h; subst h
      rw [List.all_eq_true] at hall
      constructor
      · induction fields with
        | nil => rfl
        | cons k fs ih =>
          have hk := hall k (by simp)
          have : ∃ v, r.lookup k = some v := by
            simp only [List.contains_iff_mem, fieldNames, List.mem_map] at hk
            obtain ⟨e, he, rfl⟩ := hk
            cases hl : r.lookup e.1 with
            | some v => exact ⟨v, rfl⟩
            | none =>
              have : ∀ (r : List (String × V)), e ∈ r → r.lookup e.1 ≠ none := by
                intro r hm
                induction r with
                | nil => simp at hm
                | cons f r ih =>
                  obtain ⟨k', v'⟩ := f
                  by_cases hk : e.1 = k'
                  · simp [List.lookup, hk]
                  · have h1 : (e.1 == k') = false := by simpa using hk
                    simp only [List.lookup, h1]
                    rcases List.mem_cons.1 hm with rfl | hm
                    · simp at hk
                    · exact ih hm
              exact absurd hl (this r he)
          obtain ⟨v, hv⟩ := this
          rw [List.filterMap_cons, hv]
          simp [ih (fun x hx => hall x (by simp [hx]))]
      · intro e he
        obtain ⟨k, hk, hv⟩ := List.mem_filterMap.1 he
        cases hl : r.lookup k with
        | none => rw [hl] at hv; simp at hv
        | some v => rw [hl] at hv; simp at hv; subst hv; exact hl
    next => simp at h
  · unfold subset
    constructor
    · rintro ⟨k, hk, hn⟩
      rw [if_neg]
      intro hall
      rw [List.all_eq_true] at hall
      have := hall k hk
      simp only [List.contains_iff_mem] at this
      exact hn this
    · intro h
      split at h
      · simp at h
      next hall =>
        simp only [List.all_eq_true, List.contains_iff_mem, Classical.not_forall] at hall
        obtain ⟨e, he, hk⟩ := hall
        exact ⟨e, he, hk⟩

/-- C15 is not vacuous. -/
example : subset [("electrons", 1), ("atoms", 2), ("charges", 3)] ["charges", "electrons"]
      = .ok [("charges", 3), ("electrons", 1)] ∧
    merge [("electrons", 1), ("atoms", 2)] [("atoms", 7)] = .ok [("electrons", 1), ("atoms", 7)] ∧
    (fieldNames [("electrons", 1), ("atoms", 2), ("charges", 3)]).Nodup :=
  ⟨rfl, rfl, by decide⟩

/-! ### C16 -/

/-- **C16** (all leaves are concrete arrays). The check succeeds exactly when every batched field
exists and all leaves of all batched fields have the same leading size. -/
theorem c16_check_partial (b : Batched A)
    (harr : ∀ e ∈ b.data, ∀ l ∈ e.2, ∃ rows, l = .array rows)
    (hleaf : ∀ k, b.batchedFields.head? = some k → k ∈ fieldNames b.data → leavesOf b k ≠ []) :
    check b = .ok () ↔
      (∀ k ∈ b.batchedFields, k ∈ fieldNames b.data) ∧
      ∃ n, ∀ k ∈ b.batchedFields, ∀ l ∈ leavesOf b k, leadingSize l = n := by
  unfold check
  by_cases h1 : b.batchedFields.all (fun k => (fieldNames b.data).contains k) = true
  · rw [if_neg (fun hn => hn h1)]
    have h1' : ∀ k ∈ b.batchedFields, k ∈ fieldNames b.data := by
      intro k hk
      rw [List.all_eq_true] at h1
      simpa only [List.contains_iff_mem] using h1 k hk
    rw [if_neg]
    · by_cases h3 : (b.batchedFields.all fun k => (leavesOf b k).all fun l => leadingSize l == batchSize b) = true
      · rw [if_pos h3]
        simp only [true_iff]
        refine ⟨h1', batchSize b, ?_⟩
        intro k hk l hl
        rw [List.all_eq_true] at h3
        have := h3 k hk
        rw [List.all_eq_true] at this
        simpa using this l hl
      · rw [if_neg h3]
        simp only [reduceCtorEq, false_iff, not_and, not_exists]
        intro _ n hn
        apply h3
        rw [List.all_eq_true]
        intro k hk
        rw [List.all_eq_true]
        intro l hl
        simp only [beq_iff_eq]
        rw [hn k hk l hl]
        unfold batchSize
        cases hb : b.batchedFields with
        | nil => rw [hb] at hk; simp at hk
        | cons k0 ks =>
          dsimp only
          have hk0 : k0 ∈ b.batchedFields := by rw [hb]; simp
          have := hleaf k0 (by rw [hb]; rfl) (h1' k0 hk0)
          cases hl0 : leavesOf b k0 with
          | nil => exact absurd hl0 this
          | cons l0 ls => dsimp only; exact (hn k0 hk0 l0 (by rw [hl0]; simp)).symm
    · simp only [List.any_eq_true, not_exists, not_and]
      intro l hl
      obtain ⟨ls, hls, hl⟩ := List.mem_flatten.1 hl
      obtain ⟨e, he, rfl⟩ := List.mem_map.1 hls
      obtain ⟨rows, rfl⟩ := harr e he l hl
      simp
  · rw [if_pos h1]
    simp only [reduceCtorEq, false_iff, not_and]
    intro h
    exfalso; apply h1
    rw [List.all_eq_true]
    intro k hk
    simpa only [List.contains_iff_mem] using h k hk

/-- C16 in full fails: naming a batched field that does not exist never raises the documented
`KeyError` (the error message itself raises `TypeError`). -/
theorem c16_unknown_field_typeError (b : Batched A) (k : String) (hk : k ∈ b.batchedFields)
    (hn : k ∉ fieldNames b.data) : check b = .error .typeError := by
  unfold check
  rw [if_pos]
  intro hall
  rw [List.all_eq_true] at hall
  have := hall k hk
  simp only [List.contains_iff_mem] at this
  exact hn this

/-- C16 in full fails: one leaf anywhere in the data that is not a concrete array (a NumPy array, a
number) switches the size check off. -/
theorem c16_other_leaf_skips :
    check (⟨[("x", [.array [1, 2, 3]]), ("y", [.array [1]]), ("z", [.other])], ["x", "y"]⟩ : Batched Nat)
      = .ok () := rfl

/-- C16 is not vacuous: consistent and inconsistent batches. -/
example :
    check (⟨[("x", [.array [1, 2]]), ("y", [.array [5, 6]])], ["x", "y"]⟩ : Batched Nat) = .ok () ∧
    check (⟨[("x", [.array [1, 2]]), ("y", [.array [5]])], ["x", "y"]⟩ : Batched Nat) = .error .valueError :=
  ⟨rfl, rfl⟩

/-! ### C53 -/

/-- **C53** Fully batching a data object gives every walker the values it sees under `vmap`: the entry
`i` of each fully batched field is that walker's value of a batched field, and the shared value of
a shared one. -/
theorem c53_fully_batched (n : Nat) (f : Field X) (hn : ∀ xs, f = .batched xs → xs.length = n)
    (i : Nat) (hi : i < n) :
    (fullyBatch n f)[i]? = walkerView i f ∧ (fullyBatch n f).length = n := by
  cases f with
  | batched xs => exact ⟨rfl, hn xs rfl⟩
  | shared x => simp [fullyBatch, broadcast, walkerView, hi]

/-! ### C42 -/

theorem splitAt_flatten (x : List X) (sizes : List Nat) (prev : Nat)
    (h : prev + sizes.sum = x.length) :
    (splitAt x prev (accumulate prev sizes).dropLast).flatten = x.drop prev ∧
    (sizes ≠ [] → (splitAt x prev (accumulate prev sizes).dropLast).map List.length = sizes) := by
  induction sizes generalizing prev with
  | nil => simp [accumulate, splitAt]
  | cons n ns ih =>
    cases ns with
    | nil =>
      simp [accumulate, splitAt] at h ⊢
      omega
    | cons m ms =>
      have hs : (prev + n) + (m :: ms).sum = x.length := by simp only [List.sum_cons] at h ⊢; omega
      have := ih (prev + n) hs
      have e : (accumulate prev (n :: m :: ms)).dropLast
          = (prev + n) :: (accumulate (prev + n) (m :: ms)).dropLast := by
        simp [accumulate]
      rw [e]
      simp only [splitAt, List.flatten_cons, List.map_cons]
      constructor
      · rw [this.1]
        have e2 : prev + n - prev = n := by omega
        rw [e2, ← List.drop_drop, List.take_append_drop]
      · intro _
        rw [this.2 (by simp)]
        congr 1
        simp only [List.length_take, List.length_drop, List.sum_cons] at h ⊢
        omega

/-- **C42** Splitting into non-empty channels succeeds exactly when the sizes add up; then the pieces,
concatenated, are the array, and when at least two channels are non-empty the pieces have the sizes
of the non-empty channels, in order. -/
theorem c42_split (x : List X) (sizes : List Nat) :
    (x.length ≠ sizes.sum → splitChannels x sizes = .error .valueError) ∧
    (x.length = sizes.sum → ∃ pieces, splitChannels x sizes = .ok pieces ∧ pieces.flatten = x ∧
      (2 ≤ (sizes.filter (fun n => decide (0 < n))).length →
        pieces.map List.length = sizes.filter (fun n => decide (0 < n))) ∧
      ((sizes.filter (fun n => decide (0 < n))).length ≤ 1 → pieces = [x])) := by
  constructor
  · intro h; simp [splitChannels, h]
  · intro h
    have hsum : (sizes.filter (fun n => decide (0 < n))).sum = sizes.sum := by
      clear h
      induction sizes with
      | nil => rfl
      | cons n ns ih =>
        rw [List.filter_cons]
        split
        · simp [ih]
        next hn => simp at hn; simp [hn, ih]
    unfold splitChannels
    rw [if_neg (by simpa using h)]
    split
    next hle => exact ⟨[x], rfl, by simp, fun h2 => by omega, fun _ => rfl⟩
    next hle =>
      have := splitAt_flatten x (sizes.filter (fun n => decide (0 < n))) 0 (by omega)
      refine ⟨_, rfl, by simpa [arrayPartitions] using this.1, fun _ => ?_, fun h2 => by omega⟩
      apply this.2
      intro hnil
      rw [hnil] at hle; simp at hle

/-- C42 is not vacuous: an empty channel between two others. -/
example : splitChannels [1, 2, 3, 4, 5] [2, 0, 3] = .ok [[1, 2], [3, 4, 5]] ∧
    splitChannels [1, 2] [0, 2] = .ok [[1, 2]] := ⟨rfl, rfl⟩

/-! ### C17 -/

theorem validate_ok {sizes : List Nat} {n : Nat} (h : validateSizes sizes = .ok n) :
    sizes ≠ [] ∧ ∀ m ∈ sizes, m = n := by
  cases sizes with
  | nil => simp [validateSizes] at h
  | cons a l =>
    simp only [validateSizes] at h
    split at h
    next hall =>
      simp at h; subst h
      rw [List.all_eq_true] at hall
      refine ⟨by simp, ?_⟩
      intro m hm
      rcases List.mem_cons.1 hm with rfl | hm
      · rfl
      · simpa using hall m hm
    next => simp at h

theorem argAt_chunk (n : Nat) (a : Arg X) (ha : ∀ xs, a = .mapped xs → xs.length = n)
    (start size i : Nat) (hs : start + size ≤ n) (hi : i < size) :
    argAt i (takeChunk start size a) = argAt (start + i) a := by
  cases a with
  | unmapped x => rfl
  | mapped xs =>
    have := ha xs rfl
    simp only [takeChunk, argAt, dynamicSlice]
    rw [List.getElem?_take_of_lt hi, List.getElem?_drop, Nat.min_eq_left (by omega)]

theorem unmapped_chunk (start size : Nat) (args : List (Arg X)) :
    unmappedOnly (args.map (takeChunk start size)) = unmappedOnly args := by
  induction args with
  | nil => rfl
  | cons a as ih => cases a <;> simp [takeChunk, unmappedOnly, ih]

theorem range_chunks (q c r : Nat) :
    ((List.range q).map (fun j => (List.range c).map (fun i => j * c + i))).flatten
      ++ (List.range r).map (fun i => q * c + i) = List.range (q * c + r) := by
  induction q generalizing r with
  | zero => simp
  | succ q ih =>
    rw [List.range_succ, List.map_append, List.flatten_append, List.append_assoc]
    have e : (List.map (fun j => (List.range c).map (fun i => j * c + i)) [q]).flatten
        ++ (List.range r).map (fun i => (q + 1) * c + i)
        = (List.range (c + r)).map (fun i => q * c + i) := by
      rw [List.range_add, List.map_append]
      simp only [List.map_cons, List.map_nil, List.flatten_cons, List.flatten_nil, List.append_nil,
        List.map_map]
      congr 1
      apply List.map_congr_left
      intro i _
      simp only [Function.comp_apply, Nat.succ_mul]; omega
    rw [e, ih (c + r)]
    congr 1
    rw [Nat.succ_mul]; omega

/-- **C17** For every positive chunk size (or none) chunked evaluation returns exactly what plain
evaluation of the whole batch returns, in the same order, including outputs shared by the whole
batch; it fails exactly when no argument is mapped or batch sizes disagree. -/
theorem c17_chunked (f : Fun X Y Z) (chunk : Option Nat) (hc : ∀ c, chunk = some c → 0 < c)
    (args : List (Arg X)) :
    (∀ n, mappedSizes args ≠ [] → (∀ m ∈ mappedSizes args, m = n) →
      chunkedVmap f chunk args = .ok (vmap f n args)) ∧
    ((mappedSizes args = [] ∨ ∃ m ∈ mappedSizes args, ∃ m' ∈ mappedSizes args, m ≠ m') →
      chunkedVmap f chunk args = .error .valueError) := by
  constructor
  · intro n hne hall
    have hv : validateSizes (mappedSizes args) = .ok n := by
      cases hm : mappedSizes args with
      | nil => exact absurd hm hne
      | cons a l =>
        have ha : a = n := hall a (by rw [hm]; simp)
        simp only [validateSizes]
        rw [if_pos]
        · rw [ha]
        · rw [List.all_eq_true]
          intro x hx
          have := hall x (by rw [hm]; simp [hx])
          simp [this, ha]
    have hlen : ∀ a ∈ args, ∀ xs, a = .mapped xs → xs.length = n := by
      intro a ha xs hxs
      apply hall
      clear hv hall hne
      induction args with
      | nil => simp at ha
      | cons b bs ih =>
        rcases List.mem_cons.1 ha with rfl | ha'
        · subst hxs; simp [mappedSizes]
        · cases b <;> simp [mappedSizes, ih ha']
    unfold chunkedVmap
    rw [hv]
    dsimp only
    cases chunk with
    | none => rfl
    | some c =>
      dsimp only
      have hcpos := hc c rfl
      split
      · rfl
      next hcn =>
        rw [if_neg (by omega)]
        have hq : 0 < n / c := Nat.div_pos (by omega) hcpos
        have hdiv : n / c * c + n % c = n := Nat.div_add_mod' n c
        obtain ⟨q, hqe⟩ : ∃ q, n / c = q + 1 := ⟨n / c - 1, by omega⟩
        -- one chunk
        have chunkEq : ∀ start size, start + size ≤ n →
            vmapMapped f.mapped size (args.map (takeChunk start size))
              = (List.range size).map (fun i => f.mapped (args.map (argAt (start + i)))) := by
          intro start size hs
          unfold vmapMapped
          apply List.map_congr_left
          intro i hi
          congr 1
          rw [List.map_map]
          apply List.map_congr_left
          intro a ha
          exact argAt_chunk n a (hlen a ha) start size i hs (List.mem_range.1 hi)
        have hbig : ∀ (cs : List (List Y × Z)), cs ≠ [] →
            (match cs with
              | [] => Except.error Err.valueError
              | first :: _ => Except.ok ((cs.map Prod.fst).flatten
                ++ (vmap f (n % c) (args.map (takeChunk (n / c * c) (n % c)))).1, first.2))
            = Except.ok ((cs.map Prod.fst).flatten
                ++ (vmap f (n % c) (args.map (takeChunk (n / c * c) (n % c)))).1, (cs.head?.map Prod.snd).getD
                  (f.unmapped (unmappedOnly args))) := by
          intro cs hcs
          cases cs with
          | nil => exact absurd rfl hcs
          | cons a b => simp
        refine (hbig _ (by rw [hqe]; simp [List.range_succ])).trans ?_
        congr 1
        unfold vmap
        apply Prod.ext
        · dsimp only
          rw [List.map_map, chunkEq _ _ (by omega)]
          unfold vmapMapped
          have := range_chunks (n / c) c (n % c)
          rw [hdiv] at this
          rw [← this, List.map_append, List.map_flatten, List.map_map, List.map_map]
          congr 2
          apply List.map_congr_left
          intro j hj
          simp only [Function.comp_apply]
          have hj' : j * c + c ≤ n := by
            have := List.mem_range.1 hj
            have := Nat.mul_le_mul_right c (show j + 1 ≤ n / c by omega)
            rw [Nat.succ_mul] at this
            omega
          have := chunkEq _ _ hj'
          unfold vmapMapped at this
          rw [this, List.map_map]
          rfl
        · dsimp only
          rw [hqe, List.range_succ_eq_map]
          simp [unmapped_chunk]
  · intro h
    have hv : validateSizes (mappedSizes args) = .error .valueError := by
      cases hval : validateSizes (mappedSizes args) with
      | ok n =>
        exfalso
        obtain ⟨h1, h2⟩ := validate_ok hval
        rcases h with h | ⟨m, hm, m', hm', hne⟩
        · exact h1 h
        · exact hne ((h2 m hm).trans (h2 m' hm').symm)
      | error e =>
        cases hms : mappedSizes args with
        | nil => rw [hms] at hval; simp [validateSizes] at hval; rw [← hval]
        | cons a l =>
          rw [hms] at hval; simp only [validateSizes] at hval
          split at hval
          · simp at hval
          · simp at hval; rw [← hval]
    unfold chunkedVmap
    rw [hv]

/-- C17 is not vacuous: seven walkers in chunks of three. -/
example :
    let f : Fun Nat Nat Nat := ⟨fun l => (l.filterMap id).sum, fun l => l.sum⟩
    chunkedVmap f (some 3) [.mapped [1, 2, 3, 4, 5, 6, 7], .unmapped 10]
      = .ok ([11, 12, 13, 14, 15, 16, 17], 10) := rfl

end Jaqmc.Data.Props
