import Verif.Model.Sharded
import Mathlib.Tactic.Ring
import Mathlib.Tactic.Linarith
import Mathlib.Algebra.BigOperators.Group.List.Basic

/-!
# C133 — Checkpoints on several devices and processes
-/

namespace Jaqmc.Sharded.Props

open Jaqmc.Sharded
open Jaqmc.Stats (Kahan)

/-! ## Blocks -/

theorem flatMap_block {α : Type} (b : ℕ) (xs : List α) (n : ℕ) : (List.range n).flatMap (block b xs) = xs.take (n * b) := by
  induction n with
  | zero => simp
  | succ n ih =>
    rw [List.range_succ, List.flatMap_append, ih]
    simp only [List.flatMap_cons, List.flatMap_nil, List.append_nil, block]
    rw [Nat.add_mul, Nat.one_mul, List.take_add]

theorem blocks_flatten {α : Type} (n : ℕ) (xs : List α) (h : xs.length % n = 0) : (blocks n xs).flatten = xs := by
  unfold blocks
  rw [← List.flatMap_def, flatMap_block, Nat.mul_div_cancel' (Nat.dvd_of_mod_eq_zero h), List.take_length]

theorem blocks_length {α : Type} (n : ℕ) (xs : List α) : (blocks n xs).length = n := by simp [blocks]

theorem block_length {α : Type} (n : ℕ) (xs : List α) (h : xs.length % n = 0) : ∀ s ∈ blocks n xs, s.length = xs.length / n := by
  intro s hs
  obtain ⟨d, hd, rfl⟩ := List.mem_map.mp hs
  rw [List.mem_range] at hd
  have e := Nat.mul_div_cancel' (Nat.dvd_of_mod_eq_zero h)
  have : (d + 1) * (xs.length / n) ≤ n * (xs.length / n) := Nat.mul_le_mul_right _ hd
  rw [Nat.add_mul, Nat.one_mul, e] at this
  simp only [block, List.length_take, List.length_drop]
  omega

theorem flatten_length {α : Type} (b : ℕ) : ∀ ss : List (List α), (∀ s ∈ ss, s.length = b) → ss.flatten.length = ss.length * b
  | [], _ => by simp
  | s :: ss, h => by
    rw [List.flatten_cons, List.length_append, flatten_length b ss (fun t ht => h t (List.mem_cons_of_mem _ ht)), h s List.mem_cons_self,
      List.length_cons]
    ring

theorem block_succ {α : Type} (b : ℕ) (s xs : List α) (hs : s.length = b) (d : ℕ) : block b (s ++ xs) (d + 1) = block b xs d := by
  unfold block
  have e : (d + 1) * b = s.length + d * b := by rw [hs]; ring
  rw [e, ← List.drop_drop, List.drop_left]

/-- Equal blocks are recovered from their concatenation. -/
theorem map_block_flatten {α : Type} (b : ℕ) : ∀ ss : List (List α), (∀ s ∈ ss, s.length = b) →
    (List.range ss.length).map (block b ss.flatten) = ss
  | [], _ => by simp
  | s :: ss, h => by
    have hs : s.length = b := h s List.mem_cons_self
    have ih := map_block_flatten b ss (fun t ht => h t (List.mem_cons_of_mem _ ht))
    rw [List.length_cons, List.range_succ_eq_map, List.map_cons, List.map_map, List.flatten_cons]
    congr 1
    · simp [block, ← hs]
    · have e : (List.range ss.length).map (block b (s ++ ss.flatten) ∘ Nat.succ) = (List.range ss.length).map (block b ss.flatten) := by
        apply List.map_congr_left
        intro d _
        exact block_succ b s ss.flatten hs d
      rw [e, ih]

theorem blocks_of_flatten {α : Type} (b : ℕ) (ss : List (List α)) (hn : 0 < ss.length) (h : ∀ s ∈ ss, s.length = b) :
    ss.flatten.length % ss.length = 0 ∧ blocks ss.length ss.flatten = ss := by
  have e := flatten_length b ss h
  refine ⟨by rw [e]; exact Nat.mul_mod_right _ _, ?_⟩
  unfold blocks
  rw [e, Nat.mul_div_cancel_left _ hn]
  exact map_block_flatten b ss h

/-! ## Specification -/

/-- An array as JAX can have it on the mesh: a copy on every device, or equally many rows on every device. -/
def WF {α : Type} (m : Mesh) (l : Layout) (a : Arr α) : Prop :=
  a.layout = l ∧ a.shards.length = m.devices ∧
    match l with
    | .shared => ∃ xs, ∀ s ∈ a.shards, s = xs
    | .data => ∃ b, ∀ s ∈ a.shards, s.length = b

/-- A state as `create_state`, `restore` and the steps leave it. -/
structure WFState {π α σ β : Type} (m : Mesh) (st : State π α σ β) : Prop where
  params : WF m .shared st.params
  walkers : WF m .data st.walkers
  sampler : WF m .shared st.sampler
  est : ∀ e ∈ st.est, WF m .data e.2

theorem put_of_wf {α : Type} {m : Mesh} (hm : 0 < m.devices) {l : Layout} {a : Arr α} (h : WF m l a) : devicePut m l a.global = .ok a := by
  obtain ⟨h1, h2, h3⟩ := h
  obtain ⟨la, ss⟩ := a
  subst h1
  cases la with
  | shared =>
    obtain ⟨xs, h3⟩ := h3
    simp only at h2 h3
    have e : ss = List.replicate m.devices xs := by rw [← h2]; exact List.eq_replicate_of_mem h3
    subst e
    simp only [devicePut, Arr.global]
    obtain ⟨k, hk⟩ := Nat.exists_eq_succ_of_ne_zero (Nat.pos_iff_ne_zero.mp hm)
    rw [hk, List.replicate_succ]
    simp [List.replicate_succ]
  | data =>
    obtain ⟨b, h3⟩ := h3
    simp only at h2 h3
    obtain ⟨e1, e2⟩ := blocks_of_flatten b ss (by omega) h3
    have eg : (⟨.data, ss⟩ : Arr α).global = ss.flatten := rfl
    rw [eg]
    simp only [devicePut]
    rw [← h2, if_pos e1, e2]

theorem wf_of_put {α : Type} {m : Mesh} {l : Layout} {xs : List α} {a : Arr α} (h : devicePut m l xs = .ok a) : WF m l a := by
  cases l with
  | shared =>
    simp only [devicePut, Except.ok.injEq] at h
    subst h
    refine ⟨rfl, by simp, xs, ?_⟩
    intro s hs
    exact List.eq_of_mem_replicate hs
  | data =>
    simp only [devicePut] at h
    split at h
    · rename_i hd
      simp only [Except.ok.injEq] at h
      subst h
      exact ⟨rfl, blocks_length _ _, _, block_length _ _ hd⟩
    · cases h

theorem global_of_put {α : Type} {m : Mesh} (hm : 0 < m.devices) {l : Layout} {xs : List α} {a : Arr α} (h : devicePut m l xs = .ok a) :
    a.global = xs := by
  cases l with
  | shared =>
    simp only [devicePut, Except.ok.injEq] at h
    subst h
    obtain ⟨k, hk⟩ := Nat.exists_eq_succ_of_ne_zero (Nat.pos_iff_ne_zero.mp hm)
    simp [Arr.global, hk, List.replicate_succ]
  | data =>
    simp only [devicePut] at h
    split at h
    · rename_i hd
      simp only [Except.ok.injEq] at h
      subst h
      exact blocks_flatten _ _ hd
    · cases h

theorem put_data_iff {α : Type} (m : Mesh) (xs : List α) : (∃ a, devicePut m .data xs = .ok a) ↔ m.devices ∣ xs.length := by
  simp only [devicePut, Nat.dvd_iff_mod_eq_zero]
  by_cases h : xs.length % m.devices = 0 <;> simp [h]

/-! ## The walkers at the start -/

/-- **C133** (start).  With an initialiser that gives as many walkers as asked for, the batch is distributed if and only if its size is a
multiple of the number of devices; then there are `batch` walkers, those of process 0 first, then those of process 1, and so on, and every
device has the same number of them, each process's own. -/
theorem c133_start {α : Type} (m : Mesh) (hm : 0 < m.devices) (init : ℕ → ℕ → List α) (hi : ∀ n p, (init n p).length = n) (batch : ℕ) :
    ((∃ a, initBatched m init batch = .ok a) ↔ m.devices ∣ batch) ∧
    ∀ a, initBatched m init batch = .ok a →
      WF m .data a ∧ a.global = (List.range m.procs).flatMap (init (batch / m.procs)) ∧ a.global.length = batch ∧
      ∀ p < m.procs, ∀ j < m.perProc,
        a.shards[p * m.perProc + j]? = some (block (batch / m.devices) (init (batch / m.procs) p) j) := by
  have hp : 0 < m.procs := Nat.pos_of_mul_pos_right hm
  have hl : 0 < m.perProc := Nat.pos_of_mul_pos_left hm
  unfold initBatched Mesh.devices
  by_cases h1 : batch % m.procs = 0
  · obtain ⟨k, rfl⟩ := Nat.dvd_of_mod_eq_zero h1
    rw [if_neg (by simpa using h1)]
    simp only [Nat.mul_div_cancel_left _ hp]
    have ea : ((List.range m.procs).map (init k)).all (fun xs => xs.length % m.perProc == 0) = (k % m.perProc == 0) := by
      rw [Bool.eq_iff_iff]
      simp only [List.all_eq_true, List.mem_map, List.mem_range, forall_exists_index, and_imp, forall_apply_eq_imp_iff₂, hi]
      exact ⟨fun h => h 0 hp, fun h _ _ => h⟩
    rw [ea]
    by_cases h2 : k % m.perProc = 0
    · obtain ⟨b, rfl⟩ := Nat.dvd_of_mod_eq_zero h2
      rw [if_pos (by simp)]
      refine ⟨⟨fun _ => ⟨b, by ring⟩, fun _ => ⟨_, rfl⟩⟩, ?_⟩
      rintro a ⟨⟩
      have hb : m.procs * (m.perProc * b) / (m.procs * m.perProc) = b := by
        rw [← Nat.mul_assoc]; exact Nat.mul_div_cancel_left _ hm
      have hbl : ∀ p, blocks m.perProc (init (m.perProc * b) p) = (List.range m.perProc).map (block b (init (m.perProc * b) p)) := by
        intro p
        simp only [blocks, hi, Nat.mul_div_cancel_left _ hl]
      have hall : ∀ s ∈ ((List.range m.procs).map (init (m.perProc * b))).flatMap (blocks m.perProc), s.length = b := by
        intro s hs
        simp only [List.mem_flatMap, List.mem_map] at hs
        obtain ⟨xs, ⟨p, _, rfl⟩, hs⟩ := hs
        have := block_length _ _ (by rw [hi]; exact Nat.mul_mod_right _ _) s hs
        rw [this, hi, Nat.mul_div_cancel_left _ hl]
      have hlen : (((List.range m.procs).map (init (m.perProc * b))).flatMap (blocks m.perProc)).length = m.procs * m.perProc := by
        rw [List.length_flatMap]
        simp [blocks_length, Function.comp_def, List.map_const']
      have hg : (((List.range m.procs).map (init (m.perProc * b))).flatMap (blocks m.perProc)).flatten
          = (List.range m.procs).flatMap (init (m.perProc * b)) := by
        induction List.range m.procs with
        | nil => rfl
        | cons p ps ih =>
          rw [List.map_cons, List.flatMap_cons, List.flatten_append, ih, blocks_flatten _ _ (by rw [hi]; exact Nat.mul_mod_right _ _),
            List.flatMap_cons]
      refine ⟨⟨rfl, hlen, b, hall⟩, hg, ?_, ?_⟩
      · show (List.flatten _).length = _
        rw [flatten_length b _ hall, hlen]; ring
      · intro p hpp j hj
        rw [hb]
        show (List.flatMap _ _)[_]? = _
        generalize hP : m.procs = P at *
        have key : ∀ (ps : List ℕ) (q : ℕ), ps[q]? = some p →
            ((ps.map (init (m.perProc * b))).flatMap (blocks m.perProc))[q * m.perProc + j]? = some (block b (init (m.perProc * b) p) j) := by
          intro ps
          induction ps with
          | nil => intro q hq; simp at hq
          | cons x ps ih =>
            intro q hq
            rw [List.map_cons, List.flatMap_cons]
            cases q with
            | zero =>
              simp only [List.getElem?_cons_zero, Option.some.injEq] at hq
              subst hq
              rw [List.getElem?_append_left (by rw [blocks_length]; omega), hbl]
              simp [List.getElem?_range, hj]
            | succ q =>
              rw [List.getElem?_append_right (by rw [blocks_length]; nlinarith), blocks_length]
              have e : (q + 1) * m.perProc + j - m.perProc = q * m.perProc + j := by rw [Nat.add_mul]; omega
              rw [e]
              exact ih q (by simpa using hq)
        exact key _ p (by rw [List.getElem?_range hpp])
    · rw [if_neg (by simpa using h2)]
      refine ⟨⟨fun ⟨_, h⟩ => (by cases h), ?_⟩, fun a h => by cases h⟩
      rintro ⟨c, hc⟩
      refine absurd ?_ h2
      rw [Nat.mul_assoc] at hc
      rw [Nat.eq_of_mul_eq_mul_left hp hc]
      exact Nat.mul_mod_right _ _
  · rw [if_pos (by simpa using h1)]
    refine ⟨⟨fun ⟨_, h⟩ => (by cases h), ?_⟩, fun a h => by cases h⟩
    rintro ⟨c, rfl⟩
    refine absurd ?_ h1
    rw [Nat.mul_assoc]
    exact Nat.mul_mod_right _ _

/-- Non-vacuity: 8 walkers on two processes with two devices each; 6 walkers are refused. -/
example : initBatched ⟨2, 2⟩ (fun n p => (List.range n).map (fun i => 10 * p + i)) 8 = .ok ⟨.data, [[0, 1], [2, 3], [10, 11], [12, 13]]⟩ ∧
    initBatched ⟨2, 2⟩ (fun n p => (List.range n).map (fun i => 10 * p + i)) 6 = .error .notDivisible ∧
    initBatched ⟨2, 2⟩ (fun n p => (List.range n).map (fun i => 10 * p + i)) 7 = .error .batchSize := by decide +kernel

/-! ## Saving -/

theorem owner_all (m : Mesh) (hl : 0 < m.perProc) (hp : 0 < m.procs) :
    (List.range m.devices).all (fun d => m.owner d == 0) = true ↔ m.procs = 1 := by
  simp only [List.all_eq_true, List.mem_range, beq_iff_eq, Mesh.owner, Mesh.devices]
  constructor
  · intro h
    by_contra h1
    have h2 : 2 ≤ m.procs := by omega
    have h3 : m.perProc < m.procs * m.perProc := by nlinarith
    have := h m.perProc h3
    rw [Nat.div_self hl] at this
    omega
  · intro h d hd
    rw [h, Nat.one_mul] at hd
    exact Nat.div_eq_of_lt hd

theorem fetch_shared {α : Type} {m : Mesh} {p : ℕ} {a : Arr α} (h : a.layout = .shared) : a.fetch m p = .ok a.global := by
  simp [Arr.fetch, h]

theorem fetch_one {α : Type} {m : Mesh} (hl : 0 < m.perProc) (h1 : m.procs = 1) (a : Arr α) : a.fetch m 0 = .ok a.global := by
  unfold Arr.fetch
  split
  · rfl
  · rw [if_pos ((owner_all m hl (by omega)).mpr h1)]

theorem fetchEst_one {β : Type} {m : Mesh} (hl : 0 < m.perProc) (h1 : m.procs = 1) :
    ∀ es : List (String × Arr β), fetchEst m 0 es = .ok (es.map fun e => (e.1, e.2.global))
  | [] => rfl
  | (n, a) :: r => by
    rw [fetchEst, fetch_one hl h1 a]
    simp only
    rw [fetchEst_one hl h1 r]
    rfl

theorem save_of_est {π α σ β : Type} {m : Mesh} {st : State π α σ β} (h : WFState m st) :
    save m 0 st = match fetchEst m 0 st.est with
      | .error e => .error e
      | .ok es => .ok ⟨st.params.global, st.walkers.global, st.sampler.global, es⟩ := by
  unfold save
  rw [fetch_shared h.params.1, fetch_shared h.sampler.1]
  rfl

/-- **C133** (saving).  The master process can write a checkpoint if and only if it is the only process or no estimator has a state: the walkers
are gathered from the other processes, the states of the estimators are not.  If it is written it holds the parameters, all walkers in order,
and the sampler state. -/
theorem c133_saved_iff {π α σ β : Type} (m : Mesh) (hm : 0 < m.devices) (st : State π α σ β) (h : WFState m st) :
    ((∃ f, save m 0 st = .ok f) ↔ m.procs = 1 ∨ st.est = []) ∧
    (∀ e, save m 0 st = .error e → e = .notAddressable) ∧
    ∀ f, save m 0 st = .ok f → f.params = st.params.global ∧ f.walkers = st.walkers.global ∧ f.sampler = st.sampler.global ∧
      f.est = st.est.map fun e => (e.1, e.2.global) := by
  have hp : 0 < m.procs := Nat.pos_of_mul_pos_right hm
  have hl : 0 < m.perProc := Nat.pos_of_mul_pos_left hm
  rw [save_of_est h]
  by_cases h1 : m.procs = 1
  · rw [fetchEst_one hl h1]
    refine ⟨⟨fun _ => Or.inl h1, fun _ => ⟨_, rfl⟩⟩, fun e he => (by cases he), ?_⟩
    rintro f ⟨⟩
    exact ⟨rfl, rfl, rfl, rfl⟩
  · cases hes : st.est with
    | nil =>
      refine ⟨⟨fun _ => Or.inr rfl, fun _ => ⟨_, rfl⟩⟩, fun e he => (by cases he), ?_⟩
      rintro f ⟨⟩
      exact ⟨rfl, rfl, rfl, rfl⟩
    | cons x r =>
      obtain ⟨n, a⟩ := x
      have hw := (h.est (n, a) (by rw [hes]; exact List.mem_cons_self)).1
      have e : fetchEst m 0 ((n, a) :: r) = .error .notAddressable := by
        have : a.fetch m 0 = .error .notAddressable := by
          unfold Arr.fetch
          simp only at hw
          rw [hw]
          simp only
          rw [if_neg (fun c => h1 ((owner_all m hl hp).mp c))]
        rw [fetchEst, this]
      rw [e]
      refine ⟨⟨fun ⟨_, hf⟩ => (by cases hf), ?_⟩, ?_, fun f hf => by cases hf⟩
      · rintro (c | c)
        · exact absurd c h1
        · cases c
      · rintro e ⟨⟩; rfl

/-! ## Restoring -/

theorem putEst_wf {β : Type} {m : Mesh} (hm : 0 < m.devices) : ∀ es : List (String × Arr β), (∀ e ∈ es, WF m .data e.2) →
    putEst m (es.map fun e => (e.1, e.2.global)) = .ok es
  | [], _ => rfl
  | (n, a) :: r, h => by
    rw [List.map_cons, putEst, put_of_wf hm (h (n, a) List.mem_cons_self)]
    simp only
    rw [putEst_wf hm r (fun e he => h e (List.mem_cons_of_mem _ he))]

/-- **C133** (same devices).  A checkpoint restored on the same number of devices and processes gives back the state it was made from, on
every device. -/
theorem c133_same_devices {π α σ β : Type} (m : Mesh) (hm : 0 < m.devices) (st : State π α σ β) (h : WFState m st) (f : File π α σ β)
    (hf : save m 0 st = .ok f) : restore m f = .ok st := by
  obtain ⟨h1, h2, h3, h4⟩ := (c133_saved_iff m hm st h).2.2 f hf
  unfold restore
  rw [h1, h2, h3, h4, put_of_wf hm h.params, put_of_wf hm h.walkers, put_of_wf hm h.sampler, putEst_wf hm _ h.est]

theorem putEst_spec {β : Type} {m : Mesh} (hm : 0 < m.devices) : ∀ es : List (String × List β),
    ((∃ as, putEst m es = .ok as) ↔ ∀ e ∈ es, m.devices ∣ e.2.length) ∧
    ∀ as, putEst m es = .ok as → (∀ a ∈ as, WF m .data a.2) ∧ as.map (fun e => (e.1, e.2.global)) = es
  | [] => by
    refine ⟨⟨fun _ e he => (by cases he), fun _ => ⟨_, rfl⟩⟩, ?_⟩
    rintro as ⟨⟩
    exact ⟨fun a ha => (by cases ha), rfl⟩
  | (n, xs) :: r => by
    obtain ⟨ih1, ih2⟩ := putEst_spec hm r
    rw [putEst]
    cases hd : devicePut m .data xs with
    | error e =>
      have hn : ¬ m.devices ∣ xs.length := fun c => by
        obtain ⟨a, ha⟩ := (put_data_iff m xs).mpr c
        rw [hd] at ha; cases ha
      refine ⟨⟨fun ⟨_, c⟩ => (by cases c), fun c => absurd (c (n, xs) List.mem_cons_self) hn⟩, fun as c => by cases c⟩
    | ok a =>
      have hx := (put_data_iff m xs).mp ⟨a, hd⟩
      cases hr : putEst m r with
      | error e =>
        refine ⟨⟨fun ⟨_, c⟩ => (by cases c), fun c => ?_⟩, fun as c => by cases c⟩
        obtain ⟨as, ha⟩ := ih1.mpr (fun e he => c e (List.mem_cons_of_mem _ he))
        rw [hr] at ha; cases ha
      | ok as =>
        obtain ⟨w, g⟩ := ih2 as hr
        refine ⟨⟨fun _ e he => ?_, fun _ => ⟨_, rfl⟩⟩, ?_⟩
        · rcases List.mem_cons.mp he with rfl | he
          · exact hx
          · exact ih1.mp ⟨as, hr⟩ e he
        · rintro _ ⟨⟩
          refine ⟨?_, ?_⟩
          · intro b hb
            rcases List.mem_cons.mp hb with rfl | hb
            · exact wf_of_put hd
            · exact w b hb
          · rw [List.map_cons, g, global_of_put hm hd]

/-- **C133** (other devices).  A checkpoint can be restored on any mesh whose number of devices divides the number of walkers and the number of
rows of every estimator state, and on no other; then there are the same parameters, the same walkers in the same order, the same sampler
and estimator states, spread equally over the devices. -/
theorem c133_other_devices {π α σ β : Type} (m : Mesh) (hm : 0 < m.devices) (f : File π α σ β) :
    ((∃ st, restore m f = .ok st) ↔ m.devices ∣ f.walkers.length ∧ ∀ e ∈ f.est, m.devices ∣ e.2.length) ∧
    ∀ st, restore m f = .ok st → WFState m st ∧ st.params.global = f.params ∧ st.walkers.global = f.walkers ∧ st.sampler.global = f.sampler ∧
      st.est.map (fun e => (e.1, e.2.global)) = f.est := by
  obtain ⟨e1, e2⟩ := putEst_spec hm f.est
  unfold restore
  cases hp : devicePut m .shared f.params with
  | error e => simp [devicePut] at hp
  | ok ps =>
  cases hs : devicePut m .shared f.sampler with
  | error e => simp [devicePut] at hs
  | ok ss =>
  cases hw : devicePut m .data f.walkers with
  | error e =>
    refine ⟨⟨fun ⟨_, c⟩ => (by cases c), fun c => ?_⟩, fun as c => by cases c⟩
    obtain ⟨a, ha⟩ := (put_data_iff m f.walkers).mpr c.1
    rw [hw] at ha; cases ha
  | ok ws =>
    have hx := (put_data_iff m f.walkers).mp ⟨ws, hw⟩
    cases he : putEst m f.est with
    | error e =>
      refine ⟨⟨fun ⟨_, c⟩ => (by cases c), fun c => ?_⟩, fun as c => by cases c⟩
      obtain ⟨a, ha⟩ := e1.mpr c.2
      rw [he] at ha; cases ha
    | ok es =>
      obtain ⟨w, g⟩ := e2 es he
      refine ⟨⟨fun _ => ⟨hx, e1.mp ⟨es, he⟩⟩, fun _ => ⟨_, rfl⟩⟩, ?_⟩
      rintro _ ⟨⟩
      exact ⟨⟨wf_of_put hp, wf_of_put hw, wf_of_put hs, w⟩, global_of_put hm hp, global_of_put hm hw, global_of_put hm hs, g⟩

/-- Non-vacuity: four walkers on two devices of one process, saved and restored on four; on two processes the histogram cannot be saved. -/
example :
    let st (m : Mesh) : Except Err (State ℕ ℕ ℕ ℕ) := restore m ⟨[7], [1, 2, 3, 4], [5], [("density", [0, 0, 6, 0])]⟩
    (match st ⟨1, 2⟩ with | .ok s => save ⟨1, 2⟩ 0 s | .error e => .error e) = .ok ⟨[7], [1, 2, 3, 4], [5], [("density", [0, 0, 6, 0])]⟩ ∧
    (match st ⟨2, 1⟩ with | .ok s => save ⟨2, 1⟩ 0 s | .error e => .error e) = .error .notAddressable ∧
    (match st ⟨1, 4⟩ with | .ok s => s.walkers.shards | .error _ => []) = [[1], [2], [3], [4]] := by decide +kernel

/-! ## A histogram over a restart -/

section
variable {K : Type} [CommRing K]

/-- Rows of the histogram on the devices: `r` on each, without a compensation. -/
def Rows (r : ℕ) (a : Arr (Kahan K)) : Prop := a.layout = .data ∧ ∀ s ∈ a.shards, s.length = r ∧ ∀ k ∈ s, k.compensation = 0

theorem add_exact (s : Kahan K) (c : K) (h : s.compensation = 0) : s.add id c = ⟨s.histogram + c, 0⟩ := by
  simp [Kahan.add, h]

theorem sum_rows (s : List (Kahan K)) (c : K) (h : ∀ k ∈ s, k.compensation = 0) :
    ((s.map (fun k => k.add id c)).map Kahan.histogram).sum = (s.map Kahan.histogram).sum + s.length * c := by
  induction s with
  | nil => simp
  | cons k s ih =>
    have := ih (fun x hx => h x (List.mem_cons_of_mem _ hx))
    simp only [List.map_cons, List.sum_cons, List.length_cons] at this ⊢
    rw [this, add_exact k c (h k List.mem_cons_self)]
    push_cast
    ring

theorem step_rows (r : ℕ) (a : Arr (Kahan K)) (c : List K) (h : Rows r a) (hc : c.length = a.shards.length) :
    Rows r (histStep a c) ∧ (histStep a c).shards.length = a.shards.length ∧ histTotal (histStep a c) = histTotal a + r * c.sum := by
  obtain ⟨la, ss⟩ := a
  obtain ⟨h1, h2⟩ := h
  simp only at h1 h2 hc
  subst h1
  simp only [histStep, Rows, histTotal, Arr.global, true_and]
  induction ss generalizing c with
  | nil =>
    have : c = [] := List.length_eq_zero_iff.mp hc
    subst this
    simp
  | cons s ss ih =>
    obtain ⟨x, c, rfl⟩ : ∃ x c', c = x :: c' := by
      cases c with
      | nil => simp at hc
      | cons x c => exact ⟨x, c, rfl⟩
    obtain ⟨i1, i2, i3⟩ := ih c (by simpa using hc) (fun t ht => h2 t (List.mem_cons_of_mem _ ht))
    obtain ⟨s1, s2⟩ := h2 s List.mem_cons_self
    refine ⟨?_, ?_, ?_⟩
    · intro t ht
      rw [List.zipWith_cons_cons] at ht
      rcases List.mem_cons.mp ht with rfl | ht
      · refine ⟨by simpa using s1, ?_⟩
        intro k hk
        obtain ⟨k', hk', rfl⟩ := List.mem_map.mp hk
        rw [add_exact k' x (s2 k' hk')]
      · exact i1 t ht
    · rw [List.zipWith_cons_cons, List.length_cons, i2, List.length_cons]
    · rw [List.zipWith_cons_cons, List.flatten_cons, List.map_append, List.sum_append, i3, sum_rows s x s2, List.flatten_cons,
        List.map_append, List.sum_append, List.sum_cons, s1]
      ring

theorem run_rows (r n : ℕ) : ∀ (cs : List (List K)) (a : Arr (Kahan K)), Rows r a → a.shards.length = n → (∀ c ∈ cs, c.length = n) →
    Rows r (histRun a cs) ∧ (histRun a cs).shards.length = n ∧ histTotal (histRun a cs) = histTotal a + r * (cs.map List.sum).sum
  | [], a, h, hn, _ => ⟨h, hn, by simp [histRun]⟩
  | c :: cs, a, h, hn, hc => by
    obtain ⟨s1, s2, s3⟩ := step_rows r a c h (by rw [hn]; exact hc c List.mem_cons_self)
    obtain ⟨i1, i2, i3⟩ := run_rows r n cs (histStep a c) s1 (by rw [s2, hn]) (fun d hd => hc d (List.mem_cons_of_mem _ hd))
    refine ⟨i1, i2, ?_⟩
    show histTotal (histRun (histStep a c) cs) = _
    rw [i3, s3, List.map_cons, List.sum_cons]
    ring

/-- **C133** (histograms).  A histogram of an evaluation on `D` devices, saved and resumed on `D'` devices: it can be resumed exactly if `D'`
divides `D`, and then the final histogram is the counts before the restart plus `D / D'` times the counts after it.  So it is right
when the number of devices is the same, and otherwise the steps after the restart are counted several times. -/
theorem c133_histogram (m m' : Mesh) (hm : 0 < m.devices) (hm' : 0 < m'.devices) (before after : List (List K))
    (h1 : ∀ c ∈ before, c.length = m.devices) (h2 : ∀ c ∈ after, c.length = m'.devices) :
    ∃ a, devicePut m .data (histInit m : List (Kahan K)) = .ok a ∧
      ((∃ a', devicePut m' .data (histRun a before).global = .ok a') ↔ m'.devices ∣ m.devices) ∧
      ∀ a', devicePut m' .data (histRun a before).global = .ok a' →
        histTotal (histRun a' after)
          = (before.map List.sum).sum + (m.devices / m'.devices : ℕ) * (after.map List.sum).sum := by
  obtain ⟨a, ha⟩ := (put_data_iff m (histInit m : List (Kahan K))).mpr (by simp [histInit])
  have hg := global_of_put hm ha
  obtain ⟨w1, w2, w3⟩ := wf_of_put ha
  have hr : Rows 1 a := by
    refine ⟨w1, ?_⟩
    have hs : a.shards = blocks m.devices (histInit m) := by
      simp only [devicePut, histInit, List.length_replicate, Nat.mod_self, if_true, Except.ok.injEq] at ha
      rw [← ha]; simp [histInit]
    intro s hs'
    rw [hs] at hs'
    refine ⟨?_, ?_⟩
    · rw [block_length _ _ (by simp [histInit]) s hs']
      simp [histInit, Nat.div_self hm]
    · intro k hk
      have hk' : k ∈ (blocks m.devices (histInit m : List (Kahan K))).flatten := List.mem_flatten.mpr ⟨s, hs', hk⟩
      rw [blocks_flatten _ _ (by simp [histInit])] at hk'
      rw [List.eq_of_mem_replicate hk']
      rfl
  have ht : histTotal a = 0 := by
    unfold histTotal
    rw [hg]
    simp [histInit, Kahan.init]
  obtain ⟨r1, r2, r3⟩ := run_rows 1 m.devices before a hr w2 h1
  rw [ht, zero_add, Nat.cast_one, one_mul] at r3
  have hgl : (histRun a before).global = (histRun a before).shards.flatten := by unfold Arr.global; rw [r1.1]
  have hlen : (histRun a before).global.length = m.devices := by
    rw [hgl, flatten_length 1 _ (fun s hs => (r1.2 s hs).1), r2, Nat.mul_one]
  refine ⟨a, ha, by rw [put_data_iff, hlen], ?_⟩
  intro a' ha'
  have hd := (put_data_iff m' _).mp ⟨a', ha'⟩
  have hg' := global_of_put hm' ha'
  obtain ⟨v1, v2, v3⟩ := wf_of_put ha'
  have hr' : Rows (m.devices / m'.devices) a' := by
    refine ⟨v1, ?_⟩
    have hs : a'.shards = blocks m'.devices (histRun a before).global := by
      simp only [devicePut] at ha'
      rw [if_pos (Nat.dvd_iff_mod_eq_zero.mp hd)] at ha'
      simp only [Except.ok.injEq] at ha'
      rw [← ha']
    intro s hs'
    rw [hs] at hs'
    refine ⟨?_, ?_⟩
    · rw [block_length _ _ (Nat.dvd_iff_mod_eq_zero.mp hd) s hs', hlen]
    · intro k hk
      have hk' : k ∈ (blocks m'.devices (histRun a before).global).flatten := List.mem_flatten.mpr ⟨s, hs', hk⟩
      rw [blocks_flatten _ _ (Nat.dvd_iff_mod_eq_zero.mp hd), hgl] at hk'
      obtain ⟨t, ht1, ht2⟩ := List.mem_flatten.mp hk'
      exact (r1.2 t ht1).2 k ht2
  obtain ⟨_, _, q3⟩ := run_rows (m.devices / m'.devices) m'.devices after a' hr' v2 h2
  rw [q3]
  have : histTotal a' = histTotal (histRun a before) := by unfold histTotal; rw [hg']
  rw [this, r3]

end

/-- Non-vacuity: ten counts on four devices, then ten on two devices: the total is 30, not 20; on four devices it is 20. -/
example :
    let run (m' : Mesh) (after : List (List ℤ)) : Option ℤ :=
      match devicePut ⟨1, 4⟩ .data (histInit ⟨1, 4⟩ : List (Kahan ℤ)) with
      | .error _ => none
      | .ok a => match devicePut m' .data (histRun a [[1, 2, 3, 4]]).global with
        | .error _ => none
        | .ok a' => some (histTotal (histRun a' after))
    run ⟨1, 4⟩ [[4, 3, 2, 1]] = some 20 ∧ run ⟨1, 2⟩ [[7, 3]] = some 30 ∧ run ⟨1, 3⟩ [[5, 3, 2]] = none := by decide +kernel

end Jaqmc.Sharded.Props
