import Verif.Spec.NestedDict
import Mathlib.Data.List.Nodup
import Mathlib.Data.List.Lex
import Mathlib.Order.Defs.LinearOrder

/-! # C106: iteration over nested dictionaries -/

namespace Props
open Model Spec

namespace NestedDict
variable {V : Type}

mutual
theorem value_prefix : ∀ (x : NestedVal V) (keys : List String), iterateValue x keys = (iterateValue x []).map fun p => (keys ++ p.1, p.2)
  | .leaf v, keys => by simp [iterateValue]
  | .dict items, keys => by
    rw [iterateValue, iterateValue]
    exact items_prefix items keys
theorem items_prefix : ∀ (x : NestedItems V) (keys : List String), iterateItems x keys = (iterateItems x []).map fun p => (keys ++ p.1, p.2)
  | .nil, keys => by simp [iterateItems]
  | .cons k v rest, keys => by
    rw [iterateItems, iterateItems, value_prefix v (keys ++ [k]), value_prefix v ([] ++ [k]), items_prefix rest keys, List.map_append, List.map_map]
    congr 1
    refine List.map_congr_left fun p _ => ?_
    simp
end

theorem items_cons (k : String) (v : NestedVal V) (rest : NestedItems V) :
    iterateItems (.cons k v rest) [] = ((iterateValue v []).map fun p => (k :: p.1, p.2)) ++ iterateItems rest [] := by
  rw [iterateItems, value_prefix v ([] ++ [k])]
  rfl

theorem items_nonempty : ∀ (x : NestedItems V) (p : List String × V), p ∈ iterateItems x [] → ∃ k path, p.1 = k :: path ∧ k ∈ keysOf x
  | .nil, p, h => by simp [iterateItems] at h
  | .cons k v rest, p, h => by
    rw [items_cons, List.mem_append, List.mem_map] at h
    rcases h with ⟨q, -, rfl⟩ | h
    · exact ⟨k, q.1, rfl, by simp [keysOf]⟩
    · obtain ⟨k', path, h1, h2⟩ := items_nonempty rest p h
      exact ⟨k', path, h1, by rw [keysOf]; exact List.mem_cons_of_mem _ h2⟩

theorem leafIn_key : ∀ (x : NestedItems V) (k : String) (path : List String) (v : V), leafIn x k path = some v → k ∈ keysOf x
  | .nil, k, path, v, h => by simp [leafIn] at h
  | .cons k' x rest, k, path, v, h => by
    rw [leafIn] at h
    rw [keysOf]
    split at h
    · rename_i hk
      rw [hk]
      exact List.mem_cons_self
    · exact List.mem_cons_of_mem _ (leafIn_key rest k path v h)

mutual
theorem value_mem : ∀ (x : NestedVal V), UniqueKeys x → ∀ path v, (path, v) ∈ iterateValue x [] ↔ leafAt x path = some v
  | .leaf w, _, [], v => by simp [iterateValue, leafAt, eq_comm]
  | .leaf w, _, k :: path, v => by simp [iterateValue, leafAt]
  | .dict items, h, [], v => by
    rw [iterateValue, leafAt]
    constructor
    · intro hm
      obtain ⟨k, path, h1, -⟩ := items_nonempty items _ hm
      simp at h1
    · intro hm
      simp at hm
  | .dict items, h, k :: path, v => by
    rw [iterateValue, leafAt]
    exact items_mem items h k path v
theorem items_mem : ∀ (x : NestedItems V), UniqueItems x → ∀ k path v, (k :: path, v) ∈ iterateItems x [] ↔ leafIn x k path = some v
  | .nil, _, k, path, v => by simp [iterateItems, leafIn]
  | .cons k' x rest, h, k, path, v => by
    obtain ⟨h1, h2, h3⟩ := h
    rw [items_cons, List.mem_append, List.mem_map, leafIn]
    by_cases hk : k' = k
    · rw [if_pos hk, ← value_mem x h2 path v]
      constructor
      · rintro (⟨q, hq, he⟩ | hm)
        · obtain ⟨e1, e2⟩ := Prod.mk.inj he
          rw [List.cons.injEq] at e1
          rw [← e1.2, ← e2]
          exact hq
        · obtain ⟨k2, p2, e1, e2⟩ := items_nonempty rest _ hm
          dsimp only at e1
          rw [List.cons.injEq] at e1
          rw [← e1.1, ← hk] at e2
          exact absurd e2 h1
      · intro hm
        exact Or.inl ⟨(path, v), hm, by rw [hk]⟩
    · rw [if_neg hk, ← items_mem rest h3 k path v]
      constructor
      · rintro (⟨q, hq, he⟩ | hm)
        · obtain ⟨e1, -⟩ := Prod.mk.inj he
          rw [List.cons.injEq] at e1
          exact absurd e1.1 hk
        · exact hm
      · exact Or.inr
end

theorem positionIn_le : ∀ (x : NestedItems V) (k : String) (path : List String) (n : Nat), k ∈ keysOf x → ∃ m l, n ≤ m ∧ positionIn x k path n = m :: l
  | .nil, k, path, n, h => by simp [keysOf] at h
  | .cons k' v rest, k, path, n, h => by
    rw [positionIn]
    by_cases hk : k' = k
    · rw [if_pos hk]
      exact ⟨n, _, le_rfl, rfl⟩
    · rw [if_neg hk]
      rw [keysOf] at h
      obtain ⟨m, l, h1, h2⟩ := positionIn_le rest k path (n + 1) ((List.mem_cons.1 h).resolve_left (Ne.symm hk))
      exact ⟨m, l, by omega, h2⟩

mutual
theorem value_order : ∀ (x : NestedVal V), UniqueKeys x → (iterateValue x []).Pairwise fun p q => List.Lex (· < ·) (positionAt x p.1) (positionAt x q.1)
  | .leaf w, _ => by simp [iterateValue]
  | .dict items, h => by
    rw [iterateValue]
    have := items_order items h 0
    refine this.imp_of_mem fun {p q} hp hq hpq => ?_
    obtain ⟨k, path, h1, -⟩ := items_nonempty items p hp
    obtain ⟨k', path', h1', -⟩ := items_nonempty items q hq
    rw [h1, h1', positionAt, positionAt]
    exact hpq k path k' path' h1 h1'
theorem items_order : ∀ (x : NestedItems V), UniqueItems x → ∀ n, (iterateItems x []).Pairwise fun p q => ∀ k path k' path', p.1 = k :: path → q.1 = k' :: path' →
    List.Lex (· < ·) (positionIn x k path n) (positionIn x k' path' n)
  | .nil, _, n => by simp [iterateItems]
  | .cons k0 x rest, h, n => by
    obtain ⟨h1, h2, h3⟩ := h
    rw [items_cons, List.pairwise_append]
    refine ⟨?_, ?_, ?_⟩
    · rw [List.pairwise_map]
      refine (value_order x h2).imp fun {p q} hpq => ?_
      intro k path k' path' e1 e2
      rw [List.cons.injEq] at e1 e2
      rw [positionIn, positionIn, if_pos e1.1, if_pos e2.1, ← e1.2, ← e2.2]
      exact List.Lex.cons hpq
    · refine (items_order rest h3 (n + 1)).imp_of_mem fun {p q} hp hq hpq => ?_
      intro k path k' path' e1 e2
      obtain ⟨c, d, f1, f2⟩ := items_nonempty rest p hp
      obtain ⟨c', d', f1', f2'⟩ := items_nonempty rest q hq
      rw [e1, List.cons.injEq] at f1
      rw [e2, List.cons.injEq] at f1'
      rw [positionIn, positionIn, if_neg (by rintro rfl; exact h1 (f1.1 ▸ f2)), if_neg (by rintro rfl; exact h1 (f1'.1 ▸ f2'))]
      exact hpq k path k' path' e1 e2
    · intro p hp q hq k path k' path' e1 e2
      obtain ⟨p', -, rfl⟩ := List.mem_map.1 hp
      dsimp only at e1
      rw [List.cons.injEq] at e1
      obtain ⟨c', d', f1', f2'⟩ := items_nonempty rest q hq
      rw [e2, List.cons.injEq] at f1'
      rw [positionIn, positionIn, if_pos e1.1, if_neg (by rintro rfl; exact h1 (f1'.1 ▸ f2'))]
      obtain ⟨m, l, g1, g2⟩ := positionIn_le rest k' path' (n + 1) (f1'.1 ▸ f2')
      rw [g2]
      exact List.Lex.rel (by omega)
end

end NestedDict

/-- **C106.** The iteration over a nested dictionary yields exactly the leaves with the paths of their keys, after the previous keys; each leaf once, in depth first
order. -/
theorem C106_iterate {V : Type} (nd : NestedItems V) (previous : Option (List String)) (h : UniqueItems nd) :
    (∀ keys v, (keys, v) ∈ iterateNested nd previous ↔ ∃ k path, keys = previous.getD [] ++ k :: path ∧ leafIn nd k path = some v) ∧
    ((iterateNested nd previous).map Prod.fst).Nodup ∧
    ((iterateNested nd none).Pairwise fun p q => List.Lex (· < ·) (positionAt (.dict nd) p.1) (positionAt (.dict nd) q.1)) := by
  have horder := NestedDict.value_order (.dict nd) h
  rw [iterateValue] at horder
  refine ⟨fun keys v => ?_, ?_, horder⟩
  · unfold iterateNested
    rw [NestedDict.items_prefix, List.mem_map]
    constructor
    · rintro ⟨p, hp, he⟩
      obtain ⟨k, path, h1, -⟩ := NestedDict.items_nonempty nd p hp
      obtain ⟨e1, e2⟩ := Prod.mk.inj he
      refine ⟨k, path, by rw [← e1, h1], ?_⟩
      rw [← NestedDict.items_mem nd h, ← h1, ← e2]
      exact hp
    · rintro ⟨k, path, rfl, hl⟩
      exact ⟨(k :: path, v), (NestedDict.items_mem nd h k path v).2 hl, rfl⟩
  · unfold iterateNested
    rw [NestedDict.items_prefix, List.map_map]
    have : ((iterateItems nd []).map Prod.fst).Nodup := by
      rw [List.Nodup, List.pairwise_map]
      refine horder.imp fun {p q} hpq he => ?_
      rw [he] at hpq
      exact List.lex_irrefl (fun x : Nat => lt_irrefl x) _ hpq
    have hc : (Prod.fst ∘ fun p : List String × V => (previous.getD [] ++ p.1, p.2)) = (previous.getD [] ++ ·) ∘ Prod.fst := rfl
    rw [hc, ← List.map_map]
    exact this.map fun a b hab => List.append_cancel_left hab

/-- A dictionary with an empty one inside. -/
example : iterateNested (.cons "a" (.leaf 1) (.cons "b" (.dict (.cons "c" (.leaf 2) (.cons "d" (.dict .nil) .nil))) (.cons "e" (.leaf 3) .nil))) (some ["x"]) =
    [(["x", "a"], 1), (["x", "b", "c"], 2), (["x", "e"], 3)] := rfl

end Props
