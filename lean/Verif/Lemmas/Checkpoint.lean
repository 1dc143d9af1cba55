import Verif.Spec.Checkpoint
namespace Jaqmc.Checkpoint
open Spec

/-! ### Slash-joined paths -/

theorem joinSlash_two (s t : List Char) (r : List (List Char)) :
    joinSlash (s :: t :: r) = s ++ '/' :: joinSlash (t :: r) := rfl

theorem joinSlash_one (s : List Char) : joinSlash [s] = s := rfl

theorem append_slash_inj {a b x y : List Char} (ha : '/' ∉ a) (hb : '/' ∉ b)
    (h : a ++ '/' :: x = b ++ '/' :: y) : a = b ∧ x = y := by
  induction a generalizing b with
  | nil =>
    cases b with
    | nil => simpa using h
    | cons c b => simp at h; exact absurd (by simp [← h.1]) hb
  | cons c a ih =>
    cases b with
    | nil => simp at h; exact absurd (by simp [h.1]) ha
    | cons c' b =>
      simp at h ha hb
      have := ih ha.2 hb.2 h.2
      simp [h.1, this.1, this.2]

theorem joinSlash_inj (a b : List (List Char)) (ha : ∀ s ∈ a, '/' ∉ s) (hb : ∀ s ∈ b, '/' ∉ s)
    (h : joinSlash a = joinSlash b) : a <+: b ∨ b <+: a := by
  induction a generalizing b with
  | nil => left; simp
  | cons s a ih =>
    cases b with
    | nil => right; simp
    | cons s' b =>
      have hs := ha s (by simp)
      have hs' := hb s' (by simp)
      cases a with
      | nil =>
        cases b with
        | nil => simp [joinSlash] at h; left; simp [h]
        | cons x b =>
          rw [joinSlash_two, joinSlash_one] at h
          exact absurd (by rw [h]; simp) hs
      | cons x a =>
        cases b with
        | nil =>
          rw [joinSlash_two, joinSlash_one] at h
          exact absurd (by rw [← h]; simp) hs'
        | cons y b =>
          rw [joinSlash_two, joinSlash_two] at h
          have h2 := append_slash_inj hs hs' h
          have := ih (y :: b) (fun s hs => ha s (by simp [hs])) (fun s hs => hb s (by simp [hs])) h2.2
          rcases this with h | h
          · left; rw [h2.1]; exact (List.prefix_cons_inj _).2 h
          · right; rw [h2.1]; exact (List.prefix_cons_inj _).2 h

/-! ### Paths of leaves -/

mutual
theorem Tree.leaves_prefix {V : Type} (p : List Key) : (t : Tree V) →
    t.leavesWithPath p = (t.leavesWithPath []).map (fun e => (p ++ e.1, e.2))
  | .leaf l => by simp [Tree.leavesWithPath]
  | .node c => by simp only [Tree.leavesWithPath]; exact Forest.leaves_prefix p c
theorem Forest.leaves_prefix {V : Type} (p : List Key) : (c : Forest V) →
    c.leavesWithPath p = (c.leavesWithPath []).map (fun e => (p ++ e.1, e.2))
  | .nil => by simp [Forest.leavesWithPath]
  | .cons k t rest => by
    simp only [Forest.leavesWithPath, List.map_append]
    rw [Tree.leaves_prefix (p ++ [k]) t, Tree.leaves_prefix ([] ++ [k]) t,
      Forest.leaves_prefix p rest]
    simp [Function.comp_def]
end

/-- Neither path of strings is a prefix of the other. -/
def Apart (a b : List (List Char)) : Prop := ¬ a <+: b ∧ ¬ b <+: a

theorem Forest.leaf_head {V : Type} (c : Forest V) (e) (he : e ∈ c.leavesWithPath []) :
    ∃ k q, e.1 = k :: q ∧ k.str ∈ childKeys c := by
  match c with
  | .nil => simp [Forest.leavesWithPath] at he
  | .cons k t rest =>
    simp only [Forest.leavesWithPath, List.mem_append, List.nil_append] at he
    rcases he with he | he
    · rw [Tree.leaves_prefix] at he
      simp only [List.mem_map] at he
      obtain ⟨a, -, rfl⟩ := he
      exact ⟨k, a.1, by simp, by simp [childKeys]⟩
    · obtain ⟨k', q, h1, h2⟩ := Forest.leaf_head rest e he
      exact ⟨k', q, h1, by simp [childKeys, h2]⟩

mutual
theorem Tree.apart {V : Type} : (t : Tree V) → KeysOk t →
    (t.leavesWithPath []).Pairwise (fun a b => Apart (a.1.map Key.str) (b.1.map Key.str)) ∧
    ∀ e ∈ t.leavesWithPath [], ∀ s ∈ e.1.map Key.str, '/' ∉ s
  | .leaf l, _ => by simp [Tree.leavesWithPath]
  | .node c, h => by simp only [Tree.leavesWithPath]; exact Forest.apart c h
theorem Forest.apart {V : Type} : (c : Forest V) → KeysOkF c →
    (c.leavesWithPath []).Pairwise (fun a b => Apart (a.1.map Key.str) (b.1.map Key.str)) ∧
    ∀ e ∈ c.leavesWithPath [], ∀ s ∈ e.1.map Key.str, '/' ∉ s
  | .nil, _ => by simp [Forest.leavesWithPath]
  | .cons k t rest, h => by
    obtain ⟨h1, h2, h3, h4⟩ := h
    obtain ⟨ta, tb⟩ := Tree.apart t h3
    obtain ⟨ra, rb⟩ := Forest.apart rest h4
    simp only [Forest.leavesWithPath, List.nil_append]
    rw [Tree.leaves_prefix]
    refine ⟨?_, ?_⟩
    · rw [List.pairwise_append]
      refine ⟨?_, ra, ?_⟩
      · rw [List.pairwise_map]
        refine ta.imp ?_
        intro a b hab
        unfold Apart at *
        simp only [List.map_append, List.map_cons, List.map_nil, List.cons_append, List.nil_append]
        exact ⟨fun h => hab.1 ((List.prefix_cons_inj _).1 h),
          fun h => hab.2 ((List.prefix_cons_inj _).1 h)⟩
      · intro a ha b hb
        simp only [List.mem_map] at ha
        obtain ⟨a', ha', rfl⟩ := ha
        obtain ⟨k', q, hk, hk'⟩ := Forest.leaf_head rest b hb
        have hne : k.str ≠ k'.str := fun hc => h2 (hc ▸ hk')
        unfold Apart
        simp only [List.map_append, List.map_cons, List.map_nil, List.cons_append, List.nil_append, hk]
        exact ⟨fun h => hne (List.cons_prefix_cons.1 h).1, fun h => hne (List.cons_prefix_cons.1 h).1.symm⟩
    · intro e he s hs
      rw [List.mem_append] at he
      rcases he with he | he
      · simp only [List.mem_map] at he
        obtain ⟨a, ha, rfl⟩ := he
        simp only [List.map_append, List.map_cons, List.map_nil, List.cons_append, List.nil_append,
          List.mem_cons] at hs
        rcases hs with rfl | hs
        · exact h1
        · exact tb a ha s hs
      · exact rb e he s hs
end

theorem Tree.keyPath_nodup {V : Type} (t : Tree V) (h : KeysOk t) :
    ((t.leavesWithPath []).map (fun e => keyPath e.1)).Nodup := by
  obtain ⟨h1, h2⟩ := Tree.apart t h
  rw [List.Nodup, List.pairwise_map]
  refine List.Pairwise.imp_of_mem ?_ h1
  intro a b ha hb hab heq
  rcases joinSlash_inj _ _ (h2 a ha) (h2 b hb) heq with h | h
  · exact hab.1 h
  · exact hab.2 h

/-! ### Dictionaries -/

theorem dictSet_lookup {K A : Type} [DecidableEq K] [BEq K] [LawfulBEq K] (d : List (K × A)) (k : K) (v : A) (k' : K) :
    (dictSet d k v).lookup k' = if k' = k then some v else d.lookup k' := by
  induction d with
  | nil =>
    by_cases h : k' = k
    · simp [dictSet, List.lookup, h]
    · have : (k' == k) = false := by simpa using h
      simp [dictSet, List.lookup, h, this]
  | cons e d ih =>
    obtain ⟨a, b⟩ := e
    simp only [dictSet]
    by_cases h1 : a = k
    · subst h1
      by_cases h : k' = a
      · simp [List.lookup, h]
      · have : (k' == a) = false := by simpa using h
        simp [List.lookup, h, this]
    · simp only [h1, if_false, List.lookup, ih]
      by_cases h : k' = a
      · subst h; simp [h1]
      · have : (k' == a) = false := by simpa using h
        simp [this]

theorem foldl_dictSet_new {K A B : Type} [DecidableEq K] (f : B → K) (g : B → A) (l : List B)
    (d : List (K × A)) (hn : (l.map f).Nodup) (hd : ∀ x ∈ l, f x ∉ d.map Prod.fst) :
    l.foldl (fun d e => dictSet d (f e) (g e)) d = d ++ l.map (fun e => (f e, g e)) := by
  have step : ∀ (d : List (K × A)) k v, k ∉ d.map Prod.fst → dictSet d k v = d ++ [(k, v)] := by
    intro d k v h
    induction d with
    | nil => rfl
    | cons e d ih =>
      obtain ⟨a, b⟩ := e
      simp only [List.map_cons, List.mem_cons, not_or] at h
      simp [dictSet, Ne.symm h.1, ih h.2]
  induction l generalizing d with
  | nil => simp
  | cons x l ih =>
    simp only [List.foldl_cons, List.map_cons, List.nodup_cons] at *
    rw [step d _ _ (hd x (by simp))]
    rw [ih _ hn.2]
    · simp
    · intro y hy hc
      simp only [List.map_append, List.map_cons, List.map_nil, List.mem_append, List.mem_singleton] at hc
      rcases hc with hc | hc
      · exact hd y (by simp [hy]) hc
      · exact hn.1 (hc ▸ List.mem_map_of_mem hy)

theorem treeToNpz_eq {V : Type} (t : Tree V) (h : KeysOk t) :
    treeToNpz t = (t.leavesWithPath []).map (fun e => (keyPath e.1, e.2.val)) := by
  unfold treeToNpz
  rw [foldl_dictSet_new (fun e : List Key × Leaf V => keyPath e.1) (fun e => e.2.val) _ _
    (Tree.keyPath_nodup t h) (by simp)]
  simp

/-! ### Loading -/

theorem lookup_map_nodup {A K B : Type} [BEq K] [LawfulBEq K] (f : A → K) (g : A → B) (l : List A)
    (h : (l.map f).Nodup) (x : A) (hx : x ∈ l) :
    (l.map (fun e => (f e, g e))).lookup (f x) = some (g x) := by
  induction l with
  | nil => simp at hx
  | cons a l ih =>
    simp only [List.map_cons, List.nodup_cons] at h
    simp only [List.map_cons, List.lookup]
    rcases List.mem_cons.1 hx with rfl | hx
    · simp
    · have : f x ≠ f a := fun hc => h.1 (hc ▸ List.mem_map_of_mem hx)
      have : (f x == f a) = false := by simpa using this
      simp [this, ih h.2 hx]

theorem lookup_none {A B : Type} [BEq A] [LawfulBEq A] (l : List (A × B)) (x : A)
    (h : ∀ e ∈ l, e.1 ≠ x) : l.lookup x = none := by
  induction l with
  | nil => rfl
  | cons a l ih =>
    have h1 : (x == a.1) = false := by
      have := h a (by simp); simpa using fun hc => this hc.symm
    obtain ⟨a1, a2⟩ := a
    simp only [List.lookup, h1]
    exact ih (fun e he => h e (by simp [he]))

theorem mapE_congr_ok {A B : Type} (f : A → Except Exc B) (g : A → B) (l : List A)
    (h : ∀ a ∈ l, f a = .ok (g a)) : mapE f l = .ok (l.map g) := by
  induction l with
  | nil => rfl
  | cons a l ih =>
    simp only [mapE, h a (by simp), ih (fun b hb => h b (by simp [hb])), List.map_cons]

mutual
theorem Tree.same_leaves {V : Type} (p : List Key) : (r t : Tree V) → SameShape r t →
    (r.leavesWithPath p).map (fun e => (e.1, e.2.kind)) =
    (t.leavesWithPath p).map (fun e => (e.1, e.2.kind))
  | .leaf a, .leaf b, h => by simp [Tree.leavesWithPath]; exact h
  | .node a, .node b, h => by simp only [Tree.leavesWithPath]; exact Forest.same_leaves p a b h
  | .leaf _, .node _, h => h.elim
  | .node _, .leaf _, h => h.elim
theorem Forest.same_leaves {V : Type} (p : List Key) : (r t : Forest V) → SameShapeF r t →
    (r.leavesWithPath p).map (fun e => (e.1, e.2.kind)) =
    (t.leavesWithPath p).map (fun e => (e.1, e.2.kind))
  | .nil, .nil, _ => rfl
  | .cons k t r, .cons k' t' r', h => by
    obtain ⟨rfl, h1, h2⟩ := h
    simp only [Forest.leavesWithPath, List.map_append]
    rw [Tree.same_leaves _ t t' h1, Forest.same_leaves _ r r' h2]
  | .nil, .cons _ _ _, h => h.elim
  | .cons _ _ _, .nil, h => h.elim
end

mutual
theorem Tree.refill_eq {V : Type} (p : List Key) : (r t : Tree V) → SameShape r t →
    (vs : List (Leaf V)) → r.refill ((t.leavesWithPath p).map Prod.snd ++ vs) = some (t, vs)
  | .leaf a, .leaf b, h, vs => by simp [Tree.leavesWithPath, Tree.refill]
  | .node a, .node b, h, vs => by
    simp only [Tree.leavesWithPath, Tree.refill, Forest.refill_eq p a b h vs]
  | .leaf _, .node _, h, _ => h.elim
  | .node _, .leaf _, h, _ => h.elim
theorem Forest.refill_eq {V : Type} (p : List Key) : (r t : Forest V) → SameShapeF r t →
    (vs : List (Leaf V)) → r.refill ((t.leavesWithPath p).map Prod.snd ++ vs) = some (t, vs)
  | .nil, .nil, _, vs => rfl
  | .cons k t r, .cons k' t' r', h, vs => by
    obtain ⟨rfl, h1, h2⟩ := h
    simp only [Forest.leavesWithPath, List.map_append, Forest.refill, List.append_assoc,
      Tree.refill_eq _ t t' h1, Forest.refill_eq _ r r' h2]
  | .nil, .cons _ _ _, h, _ => h.elim
  | .cons _ _ _, .nil, h, _ => h.elim
end

theorem savez_ok {V : Type} (step : Nat) (t : Tree V) (h : Savable t) :
    savez step (treeToNpz t) = .ok ⟨step, (t.leavesWithPath []).map
      (fun e => (keyPath e.1 ++ dotNpy, e.2.val))⟩ := by
  unfold savez
  rw [treeToNpz_eq t h.1, if_neg]
  · simp [Function.comp_def]
  · simp only [List.any_map, List.any_eq_true, Function.comp_apply, not_exists, not_and]
    intro e he hc
    have := (h.2 e he).1
    simp at this hc
    rcases hc with (hc | hc) | hc
    · exact this.1 hc
    · exact this.2.1 hc
    · exact this.2.2 hc

theorem load_saved {V : Type} (step : Nat) (t r : Tree V) (h : Savable t) (hs : SameShape r t) :
    treeFromNpz ⟨step, (t.leavesWithPath []).map (fun e => (keyPath e.1 ++ dotNpy, e.2.val))⟩ r
      = .ok t := by
  have hnd : ((t.leavesWithPath []).map (fun e => keyPath e.1 ++ dotNpy)).Nodup := by
    have := Tree.keyPath_nodup t h.1
    rw [List.Nodup, List.pairwise_map] at *
    exact this.imp (fun hab hc => hab (List.append_cancel_right hc))
  have hget : ∀ e ∈ t.leavesWithPath [], npzGet (V := V)
      ⟨step, (t.leavesWithPath []).map (fun e => (keyPath e.1 ++ dotNpy, e.2.val))⟩ (keyPath e.1)
      = .ok e.2.val := by
    intro e he
    unfold npzGet
    dsimp only
    rw [lookup_none]
    · dsimp only
      rw [lookup_map_nodup (fun e : List Key × Leaf V => keyPath e.1 ++ dotNpy)
        (fun e => e.2.val) _ hnd e he]
    · intro x hx hc
      simp only [List.mem_map] at hx
      obtain ⟨y, hy, rfl⟩ := hx
      exact (h.2 e he).2.1 ⟨keyPath y.1, hc⟩
  have key : mapE (fun e => fromNpz (keyPath e.1)
      ⟨step, (t.leavesWithPath []).map (fun e => (keyPath e.1 ++ dotNpy, e.2.val))⟩ e.2)
      (r.leavesWithPath []) = .ok ((t.leavesWithPath []).map Prod.snd) := by
    have e1 : (r.leavesWithPath []).map (fun e => (e.1, e.2.kind)) =
      (t.leavesWithPath []).map (fun e => (e.1, e.2.kind)) := Tree.same_leaves [] r t hs
    -- generalise the list of leaves of `t` that remains to be read
    have gen : ∀ (lr lt : List (List Key × Leaf V)),
        lr.map (fun e => (e.1, e.2.kind)) = lt.map (fun e => (e.1, e.2.kind)) →
        (∀ e ∈ lt, e ∈ t.leavesWithPath []) →
        mapE (fun e => fromNpz (keyPath e.1)
          ⟨step, (t.leavesWithPath []).map (fun e => (keyPath e.1 ++ dotNpy, e.2.val))⟩ e.2) lr
          = .ok (lt.map Prod.snd) := by
      intro lr
      induction lr with
      | nil =>
        intro lt h1 _
        cases lt with
        | nil => rfl
        | cons _ _ => simp at h1
      | cons a lr ih =>
        intro lt h1 h2
        cases lt with
        | nil => simp at h1
        | cons b lt =>
          simp only [List.map_cons, List.cons.injEq, Prod.mk.injEq] at h1
          obtain ⟨⟨hp, hk⟩, h1⟩ := h1
          have hb := h2 b (by simp)
          have hpy := (h.2 b hb).2.2
          have hfrom : fromNpz (keyPath a.1)
              ⟨step, (t.leavesWithPath []).map (fun e => (keyPath e.1 ++ dotNpy, e.2.val))⟩ a.2
              = .ok b.2 := by
            unfold fromNpz
            rw [hp, hget b hb]
            dsimp only
            rw [hk]
            obtain ⟨bp, bk, ⟨bs, bd⟩⟩ := b
            cases bk
            · rfl
            · rfl
            · have := hpy rfl
              simp only at this ⊢
              rw [this.1, if_pos this.2]
          simp only [mapE, hfrom, ih lt h1 (fun e he => h2 e (by simp [he])), List.map_cons]
    exact gen _ _ e1 (fun e he => he)
  unfold treeFromNpz
  rw [key]
  have := Tree.refill_eq [] r t hs []
  simp only [List.append_nil] at this
  dsimp only
  rw [this]

end Jaqmc.Checkpoint
