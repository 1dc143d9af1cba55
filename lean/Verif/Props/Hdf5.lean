import Verif.Spec.Writers
import Verif.Props.RunLoop
/-! # HDF5 statistics and CSV columns: C05, C06, C50 -/
namespace Jaqmc.Writers.Props
open Jaqmc.RunLoop Jaqmc.RunLoop.Spec Jaqmc.Writers Jaqmc.Writers.Spec

variable {V : Type}

theorem dataset_append (f : H5 V) (k k' : String) (v : V) :
    dataset (h5Append f k v) k' = if k' = k then dataset f k' ++ [v] else dataset f k' := by
  induction f with
  | nil =>
    by_cases h : k' = k
    · simp [h5Append, dataset, h]
    · have : (k' == k) = false := by simpa using h
      simp [h5Append, dataset, h, List.lookup, this]
  | cons e f ih =>
    obtain ⟨k0, vs⟩ := e
    simp only [h5Append]
    by_cases h0 : k0 = k
    · subst h0
      by_cases h : k' = k0
      · simp [dataset, h]
      · have : (k' == k0) = false := by simpa using h
        simp [dataset, List.lookup, this, h]
    · rw [if_neg h0]
      by_cases h : k' = k0
      · subst h; simp [dataset, h0]
      · have : (k' == k0) = false := by simpa using h
        simp only [dataset, List.lookup, this] at ih ⊢
        exact ih

theorem dataset_map (f : H5 V) (g : String → List V → List V) (hg : ∀ k, g k [] = []) (k : String) :
    dataset (f.map (fun e => (e.1, g e.1 e.2))) k = g k (dataset f k) := by
  induction f with
  | nil => simp [dataset, hg]
  | cons e f ih =>
    obtain ⟨k0, vs⟩ := e
    by_cases h : k = k0
    · subst h; simp [dataset]
    · have : (k == k0) = false := by simpa using h
      simp only [dataset, List.map_cons, List.lookup, this] at ih ⊢
      exact ih

theorem dataset_truncate (f : H5 V) (n : Nat) (k : String) :
    dataset (h5Truncate f n) k = (dataset f k).take n := by
  unfold h5Truncate
  rw [dataset_map f (fun _ l => if l.length > n then l.take n else l) (by simp)]
  split
  · rfl
  · rw [List.take_of_length_le (by omega)]

theorem dataset_kill (f : H5 V) (keep : String → Nat) (k : String) :
    dataset (h5Kill keep f) k = (dataset f k).take (keep k) := by
  unfold h5Kill
  exact dataset_map f (fun k l => l.take (keep k)) (by simp) k

theorem dataset_write (f : H5 V) (stats : List (String × Stat V)) (k : String) (v : V)
    (h : Records k stats v) : dataset (h5Write f stats) k = dataset f k ++ [v] := by
  obtain ⟨hnd, sc, hmem⟩ := h
  unfold h5Write
  have absent : ∀ (s : List (String × Stat V)) (f : H5 V), (∀ e ∈ s, e.1 ≠ k) →
      dataset (s.foldl (fun f e => if e.2.isJax then h5Append f e.1 e.2.val else f) f) k = dataset f k := by
    intro s
    induction s with
    | nil => intro f _; rfl
    | cons e s ih =>
      intro f he
      rw [List.foldl_cons, ih _ (fun x hx => he x (by simp [hx]))]
      split
      · rw [dataset_append, if_neg (he e (by simp)).symm]
      · rfl
  induction stats generalizing f with
  | nil => simp at hmem
  | cons e s ih =>
    simp only [List.map_cons, List.nodup_cons] at hnd
    rw [List.foldl_cons]
    rcases List.mem_cons.1 hmem with rfl | hm
    · rw [absent]
      · simp [dataset_append]
      · intro x hx hxe
        exact hnd.1 (List.mem_map.2 ⟨x, hx, hxe⟩)
    · have hne : k ≠ e.1 := by
        intro he; exact hnd.1 (by rw [← he]; exact List.mem_map_of_mem hm)
      rw [ih _ hnd.2 hm]
      split
      · rw [dataset_append, if_neg hne]
      · rfl

theorem dataset_rows (val : List (String × Stat V) → V) (k : String)
    (rows : List (Nat × List (String × Stat V))) (h : ∀ r ∈ rows, Records k r.2 (val r.2)) (f : H5 V) :
    dataset (rows.foldl (fun f r => h5Write f r.2) f) k = dataset f k ++ rows.map (fun r => val r.2) := by
  induction rows generalizing f with
  | nil => simp
  | cons r rows ih =>
    rw [List.foldl_cons, ih (fun x hx => h x (by simp [hx])), dataset_write _ _ _ _ (h r (by simp))]
    simp

/-- **C05** (each step records the key as an array; what a kill leaves on disk reaches the next
resume point).  After any valid sequence of sessions, the dataset of the key consists of the values
of the surviving timeline in step order, cut to what the last session left on disk. -/
theorem c05_hdf5_partial (val : List (String × Stat V) → V) (key : String) (events : List (H5Event V))
    (hvalid : Valid 0 (events.map H5Event.session))
    (hrec : ∀ e ∈ events, ∀ r ∈ e.session.rows, Records key r.2 (val r.2))
    (hkeep : KeptEnough key events) :
    let t := timeline [] (events.map H5Event.session)
    dataset (runH5 [] events) key =
      (t.map (fun r => val r.2)).take (match events.getLast? with | none => 0 | some e => e.keep key) := by
  intro t
  have main : ∀ (es : List (H5Event V)) (f : H5 V) (t0 : List (Nat × List (String × Stat V))) (n : Nat),
      es ≠ [] → Valid t0.length (es.map H5Event.session) →
      (∀ e ∈ es, ∀ r ∈ e.session.rows, Records key r.2 (val r.2)) → KeptEnough key es →
      dataset f key = (t0.map (fun r => val r.2)).take n →
      (∀ e, es.head? = some e → e.session.start ≤ n) →
      dataset (runH5 f es) key = ((timeline t0 (es.map H5Event.session)).map (fun r => val r.2)).take
        (match es.getLast? with | none => 0 | some e => e.keep key) := by
    intro es
    induction es with
    | nil => intro _ _ _ h; exact absurd rfl h
    | cons e es ih =>
      intro f t0 n _ hv hr hk hf hhead
      obtain ⟨v1, v2, v3⟩ := hv
      have hst := hhead e rfl
      have step : dataset (h5Kill e.keep (h5Session f e.session.start e.session.rows)) key
          = ((t0.take e.session.start ++ e.session.rows).map (fun r => val r.2)).take (e.keep key) := by
        rw [dataset_kill]
        unfold h5Session
        rw [dataset_rows val key _ (hr e (by simp)), dataset_truncate, hf, List.take_take,
          Nat.min_eq_left hst]
        simp [List.map_take]
      cases es with
      | nil => simpa [runH5, timeline] using step
      | cons e' es =>
        have hk' : e'.session.start ≤ e.keep key ∧ KeptEnough key (e' :: es) := hk
        have hlen : (t0.take e.session.start ++ e.session.rows).length
            = e.session.start + e.session.rows.length := by simp; omega
        have := ih _ (t0.take e.session.start ++ e.session.rows) (e.keep key) (by simp)
          (by rw [hlen]; exact v3) (fun x hx => hr x (by simp [hx])) hk'.2 step
          (by intro x hx; simp at hx; subst hx; exact hk'.1)
        have e1 : (e :: e' :: es).getLast? = (e' :: es).getLast? := by simp [List.getLast?_cons_cons]
        rw [e1]
        exact this
  cases he : events with
  | nil => simp [runH5, dataset]
  | cons e es =>
    rw [← he]
    refine main events [] [] 0 (by simp [he]) hvalid hrec hkeep (by simp [dataset]) ?_
    intro x hx
    rw [he] at hx hvalid; simp at hx; subst hx
    exact hvalid.1

/-- The hypotheses of `c05_hdf5_partial` are met by a run of three steps, killed with one unflushed
row, resumed at step 2. -/
example :
    let row (v : Nat) : List (String × Stat Nat) := [("x", ⟨v, true, true⟩)]
    let events : List (H5Event Nat) :=
      [⟨⟨0, [(0, row 10), (1, row 11), (2, row 12)]⟩, fun _ => 2⟩, ⟨⟨2, [(2, row 22)]⟩, fun _ => 9⟩]
    Valid 0 (events.map H5Event.session) ∧ KeptEnough "x" events ∧
    dataset (runH5 [] events) "x" = [10, 11, 22] := by
  refine ⟨by simp [Valid, List.range'], by simp [KeptEnough], by decide⟩

/-- C05 in full fails: if the kill loses rows below the resume point (HDF5 data is not flushed when
the checkpoint is written), the later rows move up: row 0 is then the value of step 2. -/
theorem c05_unflushed_misaligns :
    let row (v : Nat) : List (String × Stat Nat) := [("x", ⟨v, true, true⟩)]
    dataset (runH5 [] [⟨⟨0, [(0, row 10), (1, row 11)]⟩, fun _ => 0⟩, ⟨⟨2, [(2, row 12)]⟩, fun _ => 9⟩]) "x"
      = [12] := by
  decide

/-- C05 in full fails: a key that first appears after step 0 is not aligned with the step number. -/
theorem c05_late_key_misaligns :
    dataset (runH5 [] [⟨⟨0, [(0, [("x", ⟨0, true, true⟩)]),
      (1, [("x", ⟨1, true, true⟩), ("y", ⟨7, true, true⟩)])]⟩, fun _ => 9⟩]) "y" = [7] := by
  decide

/-! ### C06 -/

theorem runEval_dataset (val : List (String × Stat V) → V) (key : String)
    (ss : List (Session (List (String × Stat V))))
    (hrec : ∀ s ∈ ss, ∀ r ∈ s.rows, Records key r.2 (val r.2)) (f : H5 V) :
    dataset (runEval f ss) key = dataset f key ++ ((ss.map Session.rows).flatten).map (fun r => val r.2) := by
  induction ss generalizing f with
  | nil => simp [runEval]
  | cons s ss ih =>
    have := ih (fun x hx => hrec x (by simp [hx])) (evalSession f s.rows)
    unfold runEval at this ⊢
    rw [List.foldl_cons, this, evalSession, dataset_rows val key _ (hrec s (by simp))]
    simp

/-- **C06** (no hard kill).  Over any number of launches that end by themselves (interrupted by
signals or finished), the rows an evaluation's digest reads are exactly one per evaluated step, in
order; when all iterations are done there are `iterations` of them. -/
theorem c06_once_partial {S K : Type} (cfg : Config) (st : Stage S K (List (String × Stat V))) (s0 : S)
    (hs : cfg.saveStep ≠ 0) (launches : List (Launch K)) (hk : ∀ l ∈ launches, l.kill = none)
    (val : List (String × Stat V) → V) (key : String)
    (hrec : ∀ s k, Records key (st.compute s k).1 (val (st.compute s k).1)) :
    let h := history cfg st s0 [] launches
    ∃ rows : List (Nat × List (String × Stat V)),
      rows.map Prod.fst = List.range rows.length ∧ rows.length ≤ cfg.iterations ∧
      (rows.length = cfg.iterations ∨ launches.length ≤ rows.length) ∧
      dataset (runEval [] h.2) key = rows.map (fun r => val r.2) := by
  intro h
  obtain ⟨m, h1, h2, h3, h4⟩ := Jaqmc.RunLoop.Props.c08_interrupts cfg st s0 hs launches hk
  have hlen : ((h.2.map Session.rows).flatten).length = m := by
    have := congrArg List.length h1; rwa [List.length_map, List.length_range] at this
  refine ⟨(h.2.map Session.rows).flatten, by rw [hlen]; exact h1, by omega, by rw [hlen]; exact h4, ?_⟩
  rw [runEval_dataset val key]
  · simp [dataset]
  · intro s hs' r hr
    have := history_rows cfg st s0 launches [] s hs' r hr
    obtain ⟨s1, k1, e⟩ := this
    rw [e]; exact hrec s1 k1

/-- C06 in full fails: the evaluation never discards rows, so the number of rows the digest averages
is the total number of rows written by all launches, including steps evaluated twice. -/
theorem c06_counts_all (val : List (String × Stat V) → V) (key : String)
    (ss : List (Session (List (String × Stat V))))
    (hrec : ∀ s ∈ ss, ∀ r ∈ s.rows, Records key r.2 (val r.2)) :
    (dataset (runEval [] ss) key).length = (ss.map (fun s => s.rows.length)).sum := by
  rw [runEval_dataset val key ss hrec]
  simp [dataset, List.length_flatten, Function.comp_def]

/-- C06 in full fails: an evaluation of three steps, killed after two rows and before its first
checkpoint and then restarted, averages five rows. -/
theorem c06_kill_duplicates :
    let st : Stage Nat Unit (List (String × Stat Nat)) :=
      ⟨fun k => (k, k), fun s _ => ([("x", ⟨s, true, true⟩)], s + 1), fun s k => (s, k), fun _ => false⟩
    let env : Env := ⟨0, fun i => i, fun _ => false⟩
    dataset (runEval [] (history ⟨3, 600, 1000⟩ st 0 [] [⟨env, (), some 2⟩, ⟨env, (), none⟩]).2) "x"
      = [0, 1, 0, 1, 2] := by
  decide

/-! ### C50 -/

theorem insertKey_perm (le : String → String → Bool) (k : String) (l : List String) :
    (insertKey le k l).Perm (k :: l) := by
  induction l with
  | nil => exact List.Perm.refl _
  | cons x xs ih =>
    simp only [insertKey]
    split
    · exact List.Perm.refl _
    · exact (List.Perm.cons x ih).trans (List.Perm.swap k x xs)

theorem sortKeys_perm (le : String → String → Bool) (l : List String) : (sortKeys le l).Perm l := by
  induction l with
  | nil => exact List.Perm.refl _
  | cons k ks ih => exact (insertKey_perm le k _).trans (List.Perm.cons k ih)

theorem insertKey_sorted (le : String → String → Bool) (ht : ∀ a b, le a b = true ∨ le b a = true)
    (htr : ∀ a b c, le a b = true → le b c = true → le a c = true) (k : String) (l : List String)
    (h : l.Pairwise (fun a b => le a b = true)) :
    (insertKey le k l).Pairwise (fun a b => le a b = true) := by
  induction l with
  | nil => simp [insertKey]
  | cons x xs ih =>
    have hx := List.pairwise_cons.1 h
    simp only [insertKey]
    split
    next hk =>
      rw [List.pairwise_cons]
      refine ⟨?_, h⟩
      intro a ha
      rcases List.mem_cons.1 ha with rfl | ha
      · exact hk
      · exact htr _ _ _ hk (hx.1 a ha)
    next hk =>
      rw [List.pairwise_cons]
      refine ⟨?_, ih hx.2⟩
      intro a ha
      have := (insertKey_perm le k xs).mem_iff.1 ha
      rcases List.mem_cons.1 this with rfl | ha
      · rcases ht x a with h | h
        · exact h
        · exact absurd h hk
      · exact hx.1 a ha

theorem sortKeys_sorted (le : String → String → Bool) (ht : ∀ a b, le a b = true ∨ le b a = true)
    (htr : ∀ a b c, le a b = true → le b c = true → le a c = true) (l : List String) :
    (sortKeys le l).Pairwise (fun a b => le a b = true) := by
  induction l with
  | nil => exact List.Pairwise.nil
  | cons k ks ih => exact insertKey_sorted le ht htr k _ ih

theorem sorted_perm_eq (le : String → String → Bool)
    (ha : ∀ a b, le a b = true → le b a = true → a = b) (l l' : List String)
    (h : l.Pairwise (fun a b => le a b = true)) (h' : l'.Pairwise (fun a b => le a b = true))
    (hp : l.Perm l') : l = l' := hp.eq_of_pairwise (fun a b _ _ => ha a b) h h'

/-- Python compares strings by code points, as Lean does. -/
def pyLe (a b : String) : Bool := decide (a ≤ b)

/-- **C50** (constant set of scalar statistics).  If the statistics of a row and those the header
was written for have the same scalar keys (in whatever order), then the fields of the row are, column
by column, the values this row has for the header's column names. -/
theorem c50_columns_partial (headerStats stats : List (String × Stat V))
    (hkeys : (scalarKeys headerStats).Perm (scalarKeys stats)) :
    rowFields pyLe stats = (columns pyLe headerStats).map (fun c => (stats.lookup c).map Stat.val) := by
  have : columns pyLe headerStats = columns pyLe stats := by
    unfold columns
    apply sorted_perm_eq pyLe
    · intro a b h1 h2
      exact String.le_antisymm (by simpa [pyLe] using h1) (by simpa [pyLe] using h2)
    · exact sortKeys_sorted _ (fun a b => by simpa [pyLe] using String.le_total a b)
        (fun a b c h1 h2 => by
          simp only [pyLe, decide_eq_true_eq] at *; exact String.le_trans h1 h2) _
    · exact sortKeys_sorted _ (fun a b => by simpa [pyLe] using String.le_total a b)
        (fun a b c h1 h2 => by
          simp only [pyLe, decide_eq_true_eq] at *; exact String.le_trans h1 h2) _
    · exact ((sortKeys_perm _ _).trans hkeys).trans (sortKeys_perm _ _).symm
  rw [rowFields, this]

/-- The header of C50 names exactly the scalar statistics, each once, in increasing order. -/
theorem c50_header (stats : List (String × Stat V)) (hd : (stats.map Prod.fst).Nodup) :
    (∀ c, c ∈ columns pyLe stats ↔ ∃ s, (c, s) ∈ stats ∧ s.isScalar = true) ∧
    (columns pyLe stats).Nodup ∧ (columns pyLe stats).Pairwise (· ≤ ·) := by
  have hp := sortKeys_perm pyLe (scalarKeys stats)
  refine ⟨fun c => ?_, ?_, ?_⟩
  · unfold columns
    rw [hp.mem_iff, scalarKeys, List.mem_map]
    constructor
    · rintro ⟨⟨k, s⟩, hm, rfl⟩
      rw [List.mem_filter] at hm
      exact ⟨s, hm.1, hm.2⟩
    · rintro ⟨s, hm, hs⟩
      exact ⟨(c, s), List.mem_filter.2 ⟨hm, hs⟩, rfl⟩
  · unfold columns
    rw [hp.nodup_iff]
    exact hd.sublist (List.filter_sublist.map _)
  · have := sortKeys_sorted pyLe (fun a b => by simpa [pyLe] using String.le_total a b)
        (fun a b c h1 h2 => by
          simp only [pyLe, decide_eq_true_eq] at *; exact String.le_trans h1 h2) (scalarKeys stats)
    exact this.imp (fun h => by simpa [pyLe] using h)

/-- Every field of a row is present: no scalar column is left blank. -/
theorem c50_no_blank (stats : List (String × Stat V)) : ∀ f ∈ rowFields pyLe stats, f.isSome := by
  intro f hf
  rw [rowFields, List.mem_map] at hf
  obtain ⟨c, hc, rfl⟩ := hf
  unfold columns at hc
  rw [(sortKeys_perm pyLe (scalarKeys stats)).mem_iff, scalarKeys, List.mem_map] at hc
  obtain ⟨e, he, rfl⟩ := hc
  have he := (List.mem_filter.1 he).1
  rw [Option.isSome_map]
  cases hl : stats.lookup e.1 with
  | some _ => rfl
  | none =>
    rw [List.lookup_eq_none_iff] at hl
    exact absurd (hl e he) (by simp)

example : columns pyLe [("b", (⟨1, true, true⟩ : Stat Nat)), ("x", ⟨3, false, true⟩), ("a", ⟨2, true, false⟩)]
    = ["a", "b"] := by decide

/-! ### C61: one process writes -/

/-- **C61**. A process that is not the master leaves every statistics file as it is; on the master every
configured writer gets every row. -/
theorem c61_master_only {F R : Type} (w : List (F → Nat → R → F)) (files : List F) (step : Nat) (r : R) :
    writersWrite false w files step r = files ∧
    (w.length = files.length → ∀ (i : Nat) (h : i < files.length) (hw : i < w.length),
      (writersWrite true w files step r)[i]? = some (w[i] files[i] step r)) := by
  refine ⟨rfl, fun _ i h hw => ?_⟩
  simp only [writersWrite, if_true, List.getElem?_map, List.getElem?_zip_eq_some, Option.map_eq_some_iff]
  exact ⟨(w[i], files[i]), by simp [h, hw], rfl⟩

/-- All processes of a run (process 0 is the master) share the files; whatever the number of processes, one
`write` call adds the row once. -/
theorem c61_once {F R : Type} (w : List (F → Nat → R → F)) (files : List F) (step : Nat) (r : R) (procs : Nat) :
    (List.range (procs + 1)).foldl (fun fs p => writersWrite (decide (p = 0)) w fs step r) files
      = writersWrite true w files step r := by
  induction procs with
  | zero => rfl
  | succ n ih =>
    rw [List.range_succ, List.foldl_append, ih]
    rfl

example : (List.range 3).foldl (fun fs p => writersWrite (decide (p = 0))
    [fun (f : List Nat) s r => f ++ [s + r]] fs 5 7) [[1]] = [[1, 12]] := by decide

/-- The hypothesis is met by two rows with reordered keys. -/
example :
    scalarKeys [("b", (⟨1, true, true⟩ : Stat Nat)), ("a", ⟨2, true, true⟩)] = ["b", "a"] ∧
    (["b", "a"] : List String).Perm ["a", "b"] ∧
    rowFields pyLe [("a", (⟨5, true, true⟩ : Stat Nat)), ("b", ⟨6, true, true⟩)] = [some 5, some 6] :=
  ⟨by decide, List.Perm.swap _ _ _, by decide⟩

/-- C50 in full fails: a row with an additional statistic, or one less, is not aligned with the header:
here the header is `a, c` and the row's first two fields are those of `a` and `b`. -/
theorem c50_misaligned :
    columns pyLe [("a", (⟨1, true, true⟩ : Stat Nat)), ("c", ⟨2, true, true⟩)] = ["a", "c"] ∧
    rowFields pyLe [("a", (⟨3, true, true⟩ : Stat Nat)), ("b", ⟨4, true, true⟩), ("c", ⟨5, true, true⟩)]
      = [some 3, some 4, some 5] := by
  decide

end Jaqmc.Writers.Props
