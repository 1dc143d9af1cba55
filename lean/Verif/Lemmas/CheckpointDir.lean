import Verif.Lemmas.Checkpoint
namespace Jaqmc.Checkpoint
open Spec

/-! ### Order on names -/

theorem Char.eq_of_toNat {a b : Char} (h : a.toNat = b.toNat) : a = b := by
  apply Char.ext; exact UInt32.toNat_inj.1 h

theorem nameLe_refl (a : Name) : nameLe a a = true := by
  induction a with
  | nil => rfl
  | cons c a ih => simp [nameLe, ih]

theorem nameLe_total (a b : Name) : nameLe a b = true ∨ nameLe b a = true := by
  induction a generalizing b with
  | nil => left; rfl
  | cons c a ih =>
    cases b with
    | nil => right; rfl
    | cons d b =>
      simp only [nameLe]
      by_cases h1 : c.toNat < d.toNat
      · left; simp [h1]
      · by_cases h2 : d.toNat < c.toNat
        · right; simp [h2]
        · have : c = d := Char.eq_of_toNat (by omega)
          subst this
          simpa using ih b

theorem nameLe_trans (a b c : Name) (h1 : nameLe a b = true) (h2 : nameLe b c = true) :
    nameLe a c = true := by
  induction a generalizing b c with
  | nil => rfl
  | cons x a ih =>
    cases b with
    | nil => simp [nameLe] at h1
    | cons y b =>
      cases c with
      | nil => simp [nameLe] at h2
      | cons z c =>
        simp only [nameLe] at *
        by_cases hxy : x.toNat < y.toNat
        · by_cases hyz : y.toNat < z.toNat
          · simp [show x.toNat < z.toNat by omega]
          · simp [hyz] at h2
            simp [← h2.1, hxy]
        · simp [hxy] at h1
          obtain ⟨rfl, h1⟩ := h1
          by_cases hyz : x.toNat < z.toNat
          · simp [hyz]
          · simp [hyz] at h2
            obtain ⟨rfl, h2⟩ := h2
            simp [ih b c h1 h2]

theorem nameLe_antisymm (a b : Name) (h1 : nameLe a b = true) (h2 : nameLe b a = true) : a = b := by
  induction a generalizing b with
  | nil => cases b with | nil => rfl | cons _ _ => simp [nameLe] at h2
  | cons x a ih =>
    cases b with
    | nil => simp [nameLe] at h1
    | cons y b =>
      simp only [nameLe] at *
      by_cases hxy : x.toNat < y.toNat
      · have : ¬ y.toNat < x.toNat := by omega
        simp [this] at h2
        simp [h2.1] at hxy
      · simp [hxy] at h1
        obtain ⟨rfl, h1⟩ := h1
        simp at h2
        rw [ih b h1 h2]

theorem insertDesc_perm {A : Type} (x : Name × A) (l : List (Name × A)) :
    (insertDesc x l).Perm (x :: l) := by
  induction l with
  | nil => simp [insertDesc]
  | cons y l ih =>
    simp only [insertDesc]
    split
    · exact List.Perm.refl _
    · exact (ih.cons y).trans (List.Perm.swap x y l)

theorem sortDesc_perm {A : Type} (l : List (Name × A)) : (sortDesc l).Perm l := by
  induction l with
  | nil => exact List.Perm.refl _
  | cons x l ih => exact (insertDesc_perm x _).trans (ih.cons x)

theorem insertDesc_sorted {A : Type} (x : Name × A) (l : List (Name × A))
    (h : l.Pairwise (fun a b => nameLe b.1 a.1 = true)) :
    (insertDesc x l).Pairwise (fun a b => nameLe b.1 a.1 = true) := by
  induction l with
  | nil => simp [insertDesc]
  | cons y l ih =>
    simp only [insertDesc]
    rw [List.pairwise_cons] at h
    split
    next hyx =>
      rw [List.pairwise_cons, List.pairwise_cons]
      refine ⟨?_, h⟩
      intro z hz
      rcases List.mem_cons.1 hz with rfl | hz
      · exact hyx
      · exact nameLe_trans _ _ _ (h.1 z hz) hyx
    next hyx =>
      rw [List.pairwise_cons]
      refine ⟨?_, ih h.2⟩
      intro z hz
      rcases List.mem_cons.1 ((insertDesc_perm x l).mem_iff.1 hz) with rfl | hz
      · rcases nameLe_total y.1 z.1 with h' | h'
        · exact absurd h' hyx
        · exact h'
      · exact h.1 z hz

theorem sortDesc_sorted {A : Type} (l : List (Name × A)) :
    (sortDesc l).Pairwise (fun a b => nameLe b.1 a.1 = true) := by
  induction l with
  | nil => exact List.Pairwise.nil
  | cons x l ih => exact insertDesc_sorted x _ ih

/-! ### Decimal numerals -/

def isDigit (c : Char) : Prop := ∃ d, d < 10 ∧ c = digitChar d

theorem digitChar_toNat {d : Nat} (h : d < 10) : (digitChar d).toNat = 48 + d := by
  have : d = 0 ∨ d = 1 ∨ d = 2 ∨ d = 3 ∨ d = 4 ∨ d = 5 ∨ d = 6 ∨ d = 7 ∨ d = 8 ∨ d = 9 := by omega
  rcases this with rfl | rfl | rfl | rfl | rfl | rfl | rfl | rfl | rfl | rfl <;> rfl

def val (l : List Char) : Nat := l.foldl (fun a c => 10 * a + (c.toNat - 48)) 0

theorem val_snoc (l : List Char) (c : Char) : val (l ++ [c]) = 10 * val l + (c.toNat - 48) := by
  simp [val]

theorem decimal_digits (n : Nat) : ∀ c ∈ decimal n, isDigit c := by
  induction n using Nat.strongRecOn with
  | _ n ih =>
    rw [decimal]
    split
    next h => intro c hc; simp at hc; exact ⟨n, h, hc⟩
    next h =>
      intro c hc
      simp only [List.mem_append, List.mem_singleton] at hc
      rcases hc with hc | hc
      · exact ih (n / 10) (by omega) c hc
      · exact ⟨n % 10, by omega, hc⟩

theorem val_decimal (n : Nat) : val (decimal n) = n := by
  induction n using Nat.strongRecOn with
  | _ n ih =>
    rw [decimal]
    split
    next h => simp [val, digitChar_toNat h]
    next h =>
      rw [val_snoc, ih (n / 10) (by omega), digitChar_toNat (by omega)]
      omega

theorem decimal_length (n k : Nat) (hk : 1 ≤ k) (h : n < 10 ^ k) : (decimal n).length ≤ k := by
  induction k generalizing n with
  | zero => omega
  | succ k ih =>
    rw [decimal]
    split
    · simp
    next h10 =>
      have hk1 : 1 ≤ k := by
        rcases Nat.eq_zero_or_pos k with h0 | h0
        · subst h0; simp at h; omega
        · exact h0
      have := ih (n / 10) hk1 (by rw [Nat.pow_succ] at h; omega)
      simp; omega

theorem val_foldl_zeros (k : Nat) (l : List Char) : val (List.replicate k '0' ++ l) = val l := by
  unfold val
  rw [List.foldl_append]
  congr 1
  induction k with
  | zero => rfl
  | succ k ih =>
    rw [List.replicate_succ, List.foldl_cons]
    exact ih

theorem val_pad6 (n : Nat) : val (pad6 n) = n := by
  unfold pad6; dsimp only; rw [val_foldl_zeros, val_decimal]

theorem pad6_digits (n : Nat) : ∀ c ∈ pad6 n, isDigit c := by
  intro c hc
  unfold pad6 at hc
  simp only [List.mem_append, List.mem_replicate] at hc
  rcases hc with ⟨_, rfl⟩ | hc
  · exact ⟨0, by omega, rfl⟩
  · exact decimal_digits n c hc

theorem pad6_length {n : Nat} (h : n < 1000000) : (pad6 n).length = 6 := by
  have := decimal_length n 6 (by omega) (by simpa using h)
  unfold pad6; simp; omega

theorem val_lt (l : List Char) (h : ∀ c ∈ l, isDigit c) : val l < 10 ^ l.length := by
  induction l using List.reverseRecOn' with
  | nil => simp [val]
  | snoc l c ih =>
    rw [val_snoc]
    have h1 := ih (fun x hx => h x (by simp [hx]))
    obtain ⟨d, hd, rfl⟩ := h c (by simp)
    rw [digitChar_toNat hd]
    simp only [List.length_append, List.length_singleton, Nat.pow_succ]
    omega
where
  List.reverseRecOn' {motive : List Char → Prop} (l : List Char) (nil : motive [])
      (snoc : ∀ l c, motive l → motive (l ++ [c])) : motive l := by
    have : ∀ l : List Char, motive l.reverse := by
      intro l
      induction l with
      | nil => exact nil
      | cons a l ih => rw [List.reverse_cons]; exact snoc _ _ ih
    have h := this l.reverse
    rwa [List.reverse_reverse] at h

theorem val_cons (c : Char) (l : List Char) :
    val (c :: l) = (c.toNat - 48) * 10 ^ l.length + val l := by
  have gen : ∀ (l : List Char) (a : Nat),
      l.foldl (fun a c => 10 * a + (c.toNat - 48)) a = a * 10 ^ l.length + val l := by
    intro l
    induction l with
    | nil => intro a; simp [val]
    | cons x l ih =>
      intro a
      rw [List.foldl_cons, ih]
      have : val (x :: l) = (10 * 0 + (x.toNat - 48)) * 10 ^ l.length + val l := by
        unfold val; rw [List.foldl_cons]; exact ih _
      rw [this, Nat.mul_zero, Nat.zero_add]
      simp only [List.length_cons, Nat.pow_succ]
      generalize 10 ^ l.length = p
      generalize x.toNat - 48 = q
      rw [Nat.add_mul]
      have : 10 * a * p = a * (p * 10) := by rw [Nat.mul_comm 10 a, Nat.mul_assoc, Nat.mul_comm 10 p]
      omega
  unfold val
  rw [List.foldl_cons, gen]
  simp [val]

theorem nameLe_digits (x y : List Char) (hx : ∀ c ∈ x, isDigit c) (hy : ∀ c ∈ y, isDigit c)
    (hl : x.length = y.length) : nameLe x y = true ↔ val x ≤ val y := by
  induction x generalizing y with
  | nil => cases y with | nil => simp [nameLe] | cons _ _ => simp at hl
  | cons a x ih =>
    cases y with
    | nil => simp at hl
    | cons b y =>
      have hl' : x.length = y.length := by simpa using hl
      have hx' : ∀ c ∈ x, isDigit c := fun c hc => hx c (by simp [hc])
      have hy' : ∀ c ∈ y, isDigit c := fun c hc => hy c (by simp [hc])
      have ih' := ih y hx' hy' hl'
      have vx := val_lt x hx'
      have vy := val_lt y hy'
      obtain ⟨d, hd, rfl⟩ := hx a (by simp)
      obtain ⟨e, he, rfl⟩ := hy b (by simp)
      rw [val_cons, val_cons, digitChar_toNat hd, digitChar_toNat he]
      simp only [nameLe, digitChar_toNat hd, digitChar_toNat he]
      rw [hl'] at vx ⊢
      have e1 : 48 + d - 48 = d := by omega
      have e2 : 48 + e - 48 = e := by omega
      rw [e1, e2]
      generalize 10 ^ y.length = p at *
      by_cases h1 : d < e
      · have : (d + 1) * p ≤ e * p := Nat.mul_le_mul_right p h1
        rw [Nat.add_mul] at this
        simp [h1]; omega
      · by_cases h2 : d = e
        · subst h2; simp [ih']
        · have h3 : e < d := by omega
          have : (e + 1) * p ≤ d * p := Nat.mul_le_mul_right p h3
          rw [Nat.add_mul] at this
          have hne : ¬ digitChar d = digitChar e := by
            intro hc
            have := digitChar_toNat hd; rw [hc, digitChar_toNat he] at this; omega
          simp [h1, hne]; omega

theorem nameLe_append_left (p a b : Name) : nameLe (p ++ a) (p ++ b) = nameLe a b := by
  induction p with
  | nil => rfl
  | cons c p ih => simp [nameLe, ih]

theorem nameLe_append_right (a b s : Name) (h : a.length = b.length) :
    nameLe (a ++ s) (b ++ s) = nameLe a b := by
  induction a generalizing b with
  | nil => cases b with
    | nil => simp [nameLe, nameLe_refl]
    | cons _ _ => simp at h
  | cons x a ih =>
    cases b with
    | nil => simp at h
    | cons y b => simp only [List.cons_append, nameLe, ih b (by simpa using h)]

theorem fileName_le (stage : Name) {a b : Nat} (ha : a < 1000000) (hb : b < 1000000) :
    nameLe (fileName stage a) (fileName stage b) = true ↔ a ≤ b := by
  unfold fileName
  rw [nameLe_append_right _ _ _ (by simp [pad6_length ha, pad6_length hb]), nameLe_append_left,
    nameLe_digits _ _ (pad6_digits a) (pad6_digits b) (by rw [pad6_length ha, pad6_length hb]),
    val_pad6, val_pad6]

theorem fileName_inj (stage : Name) {a b : Nat} (h : fileName stage a = fileName stage b) :
    a = b := by
  unfold fileName at h
  have h1 := List.append_cancel_left (List.append_cancel_right h)
  rw [← val_pad6 a, h1, val_pad6]

theorem fileName_glob (stage : Name) (n : Nat) : globMatch stage (fileName stage n) = true := by
  unfold globMatch fileName
  simp only [Bool.and_eq_true, decide_eq_true_eq, List.isPrefixOf_iff_prefix,
    List.isSuffixOf_iff_suffix]
  refine ⟨⟨?_, ?_⟩, ?_⟩
  · rw [List.append_assoc]; exact List.prefix_append _ _
  · exact List.suffix_append _ _
  · simp; omega

/-! ### Directory histories -/

def fileOf {V : Type} : Event V → File V
  | .saved s t => .intact ⟨s, (t.leavesWithPath []).map (fun e => (keyPath e.1 ++ dotNpy, e.2.val))⟩
  | .cutOff _ _ n => .torn n

theorem mem_dictSet {K A : Type} [DecidableEq K] (d : List (K × A)) (k : K) (v : A)
    (hn : (d.map Prod.fst).Nodup) (e : K × A) :
    e ∈ dictSet d k v ↔ e = (k, v) ∨ (e ∈ d ∧ e.1 ≠ k) := by
  induction d with
  | nil => simp [dictSet]
  | cons a d ih =>
    obtain ⟨a1, a2⟩ := a
    simp only [List.map_cons, List.nodup_cons] at hn
    simp only [dictSet]
    split
    next h =>
      subst h
      simp only [List.mem_cons]
      constructor
      · rintro (h | h)
        · left; exact h
        · right
          refine ⟨.inr h, fun hc => hn.1 ?_⟩
          rw [← hc]; exact List.mem_map_of_mem h
      · rintro (h | ⟨h | h, h2⟩)
        · left; exact h
        · exact absurd (by rw [h]) h2
        · right; exact h
    next h =>
      simp only [List.mem_cons, ih hn.2]
      constructor
      · rintro (rfl | h' | ⟨h1, h2⟩)
        · right; exact ⟨.inl rfl, h⟩
        · left; exact h'
        · right; exact ⟨.inr h1, h2⟩
      · rintro (h' | ⟨h1 | h1, h2⟩)
        · right; left; exact h'
        · left; exact h1
        · right; right; exact ⟨h1, h2⟩

theorem dictSet_keys_nodup {K A : Type} [DecidableEq K] (d : List (K × A)) (k : K) (v : A)
    (hn : (d.map Prod.fst).Nodup) : ((dictSet d k v).map Prod.fst).Nodup := by
  induction d with
  | nil => simp [dictSet]
  | cons a d ih =>
    obtain ⟨a1, a2⟩ := a
    simp only [dictSet]
    split
    next h => subst h; simpa using hn
    next h =>
      simp only [List.map_cons, List.nodup_cons] at hn ⊢
      refine ⟨?_, ih hn.2⟩
      intro hc
      simp only [List.mem_map] at hc
      obtain ⟨e, he, rfl⟩ := hc
      rcases (mem_dictSet d k v hn.2 e).1 he with rfl | ⟨he, _⟩
      · exact h rfl
      · exact hn.1 (List.mem_map_of_mem he)

theorem runEvents_snoc {V : Type} (stage : Name) (d : Dir V) (h : List (Event V)) (e : Event V)
    (he : Savable e.tree) :
    runEvents stage d (h ++ [e]) = dictSet (runEvents stage d h) (fileName stage e.step) (fileOf e) := by
  unfold runEvents
  rw [List.foldl_append]
  cases e with
  | saved s t => simp only [List.foldl_cons, List.foldl_nil, save, savez_ok s t he, Event.step, fileOf]
  | cutOff s t n =>
    simp only [List.foldl_cons, List.foldl_nil, save, savez_ok s t he, Event.step, fileOf]

/-- `ev` is the last event about its step. -/
def Last {V : Type} (h : List (Event V)) (ev : Event V) : Prop :=
  ∃ h₁ h₂, h = h₁ ++ ev :: h₂ ∧ ∀ e ∈ h₂, e.step ≠ ev.step

theorem last_snoc {V : Type} (h : List (Event V)) (e ev : Event V) :
    Last (h ++ [e]) ev ↔ ev = e ∨ (Last h ev ∧ ev.step ≠ e.step) := by
  constructor
  · rintro ⟨h₁, h₂, heq, hs⟩
    rcases List.eq_nil_or_concat h₂ with rfl | ⟨h₃, x, rfl⟩
    · left
      have := List.append_inj_right' heq (by simp)
      simpa using this.symm
    · right
      have e1 : h₁ ++ ev :: (h₃ ++ [x]) = (h₁ ++ ev :: h₃) ++ [x] := by simp
      rw [List.concat_eq_append, e1] at heq
      have h1 := List.append_inj_left' heq (by simp)
      have h2 := List.append_inj_right' heq (by simp)
      simp only [List.cons.injEq, and_true] at h2
      subst h2
      exact ⟨⟨h₁, h₃, h1, fun y hy => hs y (by simp [hy])⟩, fun hc => hs e (by simp) hc.symm⟩
  · rintro (rfl | ⟨⟨h₁, h₂, rfl, hs⟩, hne⟩)
    · exact ⟨h, [], by simp, by simp⟩
    · refine ⟨h₁, h₂ ++ [e], by simp, ?_⟩
      intro y hy
      simp only [List.mem_append, List.mem_singleton] at hy
      rcases hy with hy | rfl
      · exact hs y hy
      · exact fun hc => hne hc.symm

theorem runEvents_spec {V : Type} (stage : Name) (d0 : Dir V) (hd0 : (d0.map Prod.fst).Nodup)
    (hg : ∀ e ∈ d0, globMatch stage e.1 = false) (h : List (Event V))
    (hs : ∀ e ∈ h, Savable e.tree) :
    ((runEvents stage d0 h).map Prod.fst).Nodup ∧
    ∀ x, (x ∈ runEvents stage d0 h ∧ globMatch stage x.1 = true) ↔
      ∃ ev, Last h ev ∧ x = (fileName stage ev.step, fileOf ev) := by
  have main : ∀ r : List (Event V), (∀ e ∈ r, Savable e.tree) →
      ((runEvents stage d0 r.reverse).map Prod.fst).Nodup ∧
      ∀ x, (x ∈ runEvents stage d0 r.reverse ∧ globMatch stage x.1 = true) ↔
        ∃ ev, Last r.reverse ev ∧ x = (fileName stage ev.step, fileOf ev) := by
    intro r
    induction r with
    | nil =>
      intro _
      refine ⟨hd0, fun x => ⟨fun hx => ?_, ?_⟩⟩
      · have := hg x hx.1; rw [hx.2] at this; exact absurd this (by simp)
      · rintro ⟨ev, ⟨h₁, h₂, h, _⟩, _⟩
        simp at h
    | cons e r ih =>
      intro hs
      obtain ⟨ih1, ih2⟩ := ih (fun x hx => hs x (by simp [hx]))
      rw [List.reverse_cons, runEvents_snoc _ _ _ _ (hs e (by simp))]
      refine ⟨dictSet_keys_nodup _ _ _ ih1, fun x => ?_⟩
      rw [mem_dictSet _ _ _ ih1]
      constructor
      · rintro ⟨rfl | ⟨hx, hne⟩, hgl⟩
        · exact ⟨e, (last_snoc _ _ _).2 (.inl rfl), rfl⟩
        · obtain ⟨ev, hl, rfl⟩ := (ih2 x).1 ⟨hx, hgl⟩
          refine ⟨ev, (last_snoc _ _ _).2 (.inr ⟨hl, fun hc => hne ?_⟩), rfl⟩
          dsimp only; rw [hc]
      · rintro ⟨ev, hl, rfl⟩
        refine ⟨?_, fileName_glob _ _⟩
        rcases (last_snoc _ _ _).1 hl with rfl | ⟨hl, hne⟩
        · left; rfl
        · right
          refine ⟨((ih2 _).2 ⟨ev, hl, rfl⟩).1, fun hc => hne (fileName_inj stage hc)⟩
  have := main h.reverse (fun e he => hs e (by simpa using he))
  simpa using this

theorem tryAll_skip {V : Type} (strict : Bool) (fb : Tree V) (pre post : List (Name × File V))
    (hpre : ∀ x ∈ pre, ∃ e, restoreFromFile x.2 fb = .error e ∧ e.caught = true) :
    tryAll strict fb (pre ++ post) = tryAll strict fb post := by
  induction pre with
  | nil => rfl
  | cons x pre ih =>
    obtain ⟨e, h1, h2⟩ := hpre x (by simp)
    obtain ⟨n, f⟩ := x
    simp only [List.cons_append, tryAll, h1, h2, if_true]
    exact ih (fun y hy => hpre y (by simp [hy]))

theorem restore_torn {V : Type} (n : Nat) (fb : Tree V) (h : n = 0 ∨ 4 ≤ n) :
    ∃ e, restoreFromFile (.torn n) fb = .error e ∧ e.caught = true := by
  rcases h with rfl | h
  · exact ⟨.eofError, rfl, rfl⟩
  · obtain ⟨m, rfl⟩ : ∃ m, n = m + 1 := ⟨n - 1, by omega⟩
    refine ⟨.badZipFile, ?_, rfl⟩
    simp only [restoreFromFile, npLoad, if_neg (show ¬ m + 1 < 4 by omega)]

theorem restore_saved {V : Type} (s : Nat) (t fb : Tree V) (h : Savable t) (hs : SameShape fb t) :
    restoreFromFile (fileOf (.saved s t)) fb = .ok (s + 1, t) := by
  simp only [restoreFromFile, fileOf, npLoad, load_saved s t fb h hs]

/-! ### Storable trees are savable -/
open Spec

theorem isDigit_ne {c d : Char} (h : isDigit c) (hd : d.toNat < 48 ∨ 57 < d.toNat) : c ≠ d := by
  obtain ⟨k, hk, rfl⟩ := h
  intro hc
  have := digitChar_toNat hk
  rw [hc] at this
  omega

theorem decimal_no_slash (n : Nat) : '/' ∉ decimal n := fun h =>
  isDigit_ne (decimal_digits n _ h) (d := '/') (Or.inl (by decide)) rfl

theorem decimal_inj {a b : Nat} (h : decimal a = decimal b) : a = b := by
  rw [← val_decimal a, ← val_decimal b, h]

theorem Key.slash_free (k : Key) (h : SlashFree k) : '/' ∉ k.str := by
  cases k with
  | dict s => exact h
  | attr s => exact h
  | seq i => exact decimal_no_slash i

theorem Key.str_inj (k k' : Key) (h : SameKind k k') (hs : k.str = k'.str) : k = k' := by
  cases k <;> cases k' <;> simp only [SameKind] at h
  · simpa [Key.str] using hs
  · exact congrArg Key.seq (decimal_inj hs)
  · simpa [Key.str] using hs

theorem childKeys_eq {V : Type} : (c : Forest V) → childKeys c = (rawKeys c).map Key.str
  | .nil => rfl
  | .cons k t r => by rw [childKeys, rawKeys, List.map_cons, childKeys_eq r]

mutual
theorem Tree.keysOk {V : Type} : (t : Tree V) → WellKeyed t → KeysOk t
  | .leaf _, _ => by rw [KeysOk]; trivial
  | .node c, h => by rw [KeysOk]; exact c.keysOk (by rw [WellKeyed] at h; exact h)
theorem Forest.keysOk {V : Type} : (c : Forest V) → WellKeyedF c → KeysOkF c
  | .nil, _ => by rw [KeysOkF]; trivial
  | .cons k t r, h => by
    rw [WellKeyedF] at h
    obtain ⟨h1, h2, h3, h4⟩ := h
    rw [KeysOkF]
    refine ⟨k.slash_free h1, ?_, t.keysOk h3, r.keysOk h4⟩
    rw [childKeys_eq]
    intro hc
    obtain ⟨k', hk', he⟩ := List.mem_map.1 hc
    exact (h2 k' hk').1 (k.str_inj k' (h2 k' hk').2 he.symm)
end

mutual
theorem Tree.paths_slash {V : Type} (p : List Key) (hp : ∀ k ∈ p, '/' ∉ k.str) : (t : Tree V) → WellKeyed t →
    ∀ e ∈ t.leavesWithPath p, ∀ k ∈ e.1, '/' ∉ k.str
  | .leaf _, _ => by
    intro e he; rw [Tree.leavesWithPath, List.mem_singleton] at he; subst he; exact hp
  | .node c, h => by
    rw [WellKeyed] at h
    intro e he; rw [Tree.leavesWithPath] at he; exact c.paths_slash p hp h e he
theorem Forest.paths_slash {V : Type} (p : List Key) (hp : ∀ k ∈ p, '/' ∉ k.str) : (c : Forest V) → WellKeyedF c →
    ∀ e ∈ c.leavesWithPath p, ∀ k ∈ e.1, '/' ∉ k.str
  | .nil, _ => by intro e he; rw [Forest.leavesWithPath] at he; simp at he
  | .cons k t r, h => by
    rw [WellKeyedF] at h
    obtain ⟨h1, h2, h3, h4⟩ := h
    intro e he
    rw [Forest.leavesWithPath, List.mem_append] at he
    rcases he with he | he
    · refine t.paths_slash (p ++ [k]) ?_ h3 e he
      intro k' hk'
      rcases List.mem_append.1 hk' with hk' | hk'
      · exact hp k' hk'
      · rw [List.mem_singleton] at hk'; rw [hk']; exact k.slash_free h1
    · exact r.paths_slash p hp h4 e he
end

theorem joinSlash_no_slash (l : List (List Char)) (h : '/' ∉ joinSlash l) : l = [] ∨ ∃ s, l = [s] := by
  match l with
  | [] => exact .inl rfl
  | [s] => exact .inr ⟨s, rfl⟩
  | s :: t :: r => rw [joinSlash_two] at h; simp at h

/-- A suffix without slash of a joined path is a suffix of its last segment. -/
theorem suffix_joinSlash (l : List (List Char)) (x : List Char) (hx : '/' ∉ x) (hne : x ≠ [])
    (h : x <:+ joinSlash l) : ∃ s, l.getLast? = some s ∧ x <:+ s := by
  induction l with
  | nil => rw [joinSlash, List.suffix_nil] at h; exact absurd h hne
  | cons s l ih =>
    cases l with
    | nil => exact ⟨s, rfl, h⟩
    | cons t r =>
      rw [joinSlash_two] at h
      have h' : x <:+ joinSlash (t :: r) := by
        rcases List.suffix_or_suffix_of_suffix h (List.suffix_append s ('/' :: joinSlash (t :: r))) with h1 | h1
        · rcases List.suffix_cons_iff.1 h1 with h2 | h2
          · exact absurd (by rw [h2]; simp) hx
          · exact h2
        · obtain ⟨w, hw⟩ := h1
          exact absurd (by rw [← hw]; simp) hx
      obtain ⟨u, hu, hs⟩ := ih h'
      exact ⟨u, by simpa using hu, hs⟩

theorem seq_not_npy (i : Nat) : ¬ dotNpy <:+ decimal i := by
  intro h
  have : 'y' ∈ decimal i := h.subset (by simp [dotNpy])
  exact isDigit_ne (decimal_digits i _ this) (d := 'y') (Or.inr (by decide)) rfl

theorem storable_savable {V : Type} (t : Tree V) (h : Storable t) : Savable t := by
  refine ⟨t.keysOk h.1, ?_⟩
  intro e he
  obtain ⟨h1, h2, h3⟩ := h.2 e he
  have hsl := t.paths_slash [] (by simp) h.1 e he
  refine ⟨?_, ?_, h3⟩
  · intro hc
    have hns : '/' ∉ joinSlash (e.1.map Key.str) := by
      intro hm
      have : '/' ∈ keyPath e.1 := hm
      simp only [List.mem_cons, List.not_mem_nil, or_false] at hc
      rcases hc with hc | hc | hc <;> rw [hc] at this <;> revert this <;> decide
    rcases joinSlash_no_slash _ hns with hl | ⟨s, hl⟩
    · unfold keyPath at hc
      rw [hl] at hc
      revert hc; decide
    · have hp : ∃ k, e.1 = [k] ∧ k.str = s := by
        match hm : e.1, hl with
        | [k], hl => exact ⟨k, rfl, by simpa using hl⟩
        | [], hl => simp at hl
        | _ :: _ :: _, hl => simp at hl
      obtain ⟨k, hk, rfl⟩ := hp
      have hkp : keyPath e.1 = k.str := by rw [hk]; rfl
      rw [hkp] at hc
      cases k with
      | dict s => exact h1 _ s hk (.inl rfl) hc
      | attr s => exact h1 _ s hk (.inr rfl) hc
      | seq i =>
        have hd := decimal_digits i
        simp only [Key.str, List.mem_cons, List.not_mem_nil, or_false] at hc
        rcases hc with hc | hc | hc <;> rw [hc] at hd
        · exact isDigit_ne (hd 's' (by decide)) (d := 's') (Or.inr (by decide)) rfl
        · exact isDigit_ne (hd 'f' (by decide)) (d := 'f') (Or.inr (by decide)) rfl
        · exact isDigit_ne (hd 'a' (by decide)) (d := 'a') (Or.inr (by decide)) rfl
  · intro hc
    obtain ⟨s, hs, hsuf⟩ := suffix_joinSlash _ dotNpy (by decide) (by decide) hc
    rw [List.getLast?_map] at hs
    cases hl : e.1.getLast? with
    | none => rw [hl] at hs; cases hs
    | some k =>
      rw [hl] at hs
      have hk : k.str = s := by simpa using hs
      subst hk
      cases k with
      | dict s => exact h2 _ s hl (.inl rfl) hsuf
      | attr s => exact h2 _ s hl (.inr rfl) hsuf
      | seq i => exact seq_not_npy i hsuf

end Jaqmc.Checkpoint
