import Verif.Props.C64

/-!
# C65: labels in drawings

Full statement: in a drawing different nodes have different labels, so that the drawing shows the diagram. It holds for nodes that are stored close to each
other and is false for large diagrams: the label consists of 20 bits of the address. The comment in the code promises 2^20 nodes; addresses of
nodes are multiples of 8, so that there are 2^18 labels only.
-/

namespace DD
open UTable

theorem dotLabel_eq (p : Nat) : dotLabel p = p % 2 ^ 21 / 2 := by
  unfold dotLabel
  rw [Nat.shiftRight_eq_div_pow, show (0x1fffff : Nat) = 2 ^ 21 - 1 by norm_num, Nat.and_two_pow_sub_one_eq_mod]

/-- Nodes at different even addresses less than 2 MiB apart have different labels. -/
theorem dotLabel_inj {p q : Nat} (hp : p % 2 = 0) (hq : q % 2 = 0) (h1 : p < q + 2 ^ 21) (h2 : q < p + 2 ^ 21) (h : dotLabel p = dotLabel q) :
    p = q := by
  rw [dotLabel_eq, dotLabel_eq] at h
  omega

section

variable {R : Type} [Field R] [LinearOrder R] [IsStrictOrderedRing R] [HasSqrt R] [LawfulSqrt R]

/-- In a drawing of a diagram whose nodes lie within 2 MiB, the labels of the declared nodes are pairwise different. `addr` gives the addresses of
the cells of the table. -/
theorem C65_labels_partial {P : PCfg R} {h : PHist R} (hC : P.C.Good) (hr : PReach P h) {k : Kind} {l : Nat} {e : PEdge R}
    (he : Valid (h.pkg.ut k) l e) {skip : Cx R → Bool} {s : DotState (Cx R) (ar k)}
    (hs : Relation.ReflTransGen (DotStep (h.pkg.ut k) skip) (dotStart e) s) (hq : s.queue = [])
    {addr : Nat → Nat} (hinj : Function.Injective addr) (heven : ∀ a, addr a % 2 = 0)
    (hnear : ∀ a b, DrawnFrom (h.pkg.ut k) skip e.p (some a) → DrawnFrom (h.pkg.ut k) skip e.p (some b) → addr a < addr b + 2 ^ 21) :
    (s.nodes.map fun a => dotLabel (addr a)).Nodup := by
  obtain ⟨⟨h1, h2⟩, _⟩ := C64_complete hC hr he hs hq
  rw [List.nodup_map_iff_inj_on h1]
  intro a ha b hb hab
  exact hinj (dotLabel_inj (heven a) (heven b) (hnear a b ((h2 a).1 ha) ((h2 b).1 hb)) (hnear b a ((h2 b).1 hb) ((h2 a).1 ha)) hab)

end

/-- In every drawing of more than 2^18 nodes two different nodes have the same label, wherever the nodes are stored. -/
theorem C65_false {addr : Nat → Nat} (hal : ∀ a, addr a % 8 = 0) {nodes : List Nat} (hn : nodes.Nodup) (hlen : 2 ^ 18 < nodes.length) :
    ∃ a ∈ nodes, ∃ b ∈ nodes, a ≠ b ∧ dotLabel (addr a) = dotLabel (addr b) := by
  obtain ⟨a, ha, b, hb, hab, hl⟩ := Finset.exists_ne_map_eq_of_card_lt_of_maps_to (s := nodes.toFinset) (t := Finset.range (2 ^ 18))
    (f := fun a => addr a / 8 % 2 ^ 18) (by rw [Finset.card_range, List.toFinset_card_of_nodup hn]; exact hlen)
    (fun a _ => Finset.mem_coe.2 (Finset.mem_range.2 (Nat.mod_lt _ (by norm_num))))
  refine ⟨a, List.mem_toFinset.1 ha, b, List.mem_toFinset.1 hb, hab, ?_⟩
  have h1 := hal a
  have h2 := hal b
  rw [dotLabel_eq, dotLabel_eq]
  omega

/-- Two vector nodes (of 64 bytes, Node.hpp:19-24) in the same block of memory, 32768 cells apart, have the same label. The unique table allocates blocks of
that size after a few allocations: 2048 cells at first, twice as many each time (UniqueTable.hpp:33). -/
theorem C65_false_chunk (base i : Nat) : dotLabel (base + 64 * i) = dotLabel (base + 64 * (i + 32768)) := by
  rw [dotLabel_eq, dotLabel_eq]
  omega

example : ∃ a ∈ List.range (2 ^ 18 + 1), ∃ b ∈ List.range (2 ^ 18 + 1), a ≠ b ∧ dotLabel (8 * a) = dotLabel (8 * b) :=
  C65_false (addr := fun a => 8 * a) (fun a => by omega) List.nodup_range (by rw [List.length_range]; omega)

example : dotLabel 0x7f0000001040 = dotLabel 0x7f0000201040 := by decide

end DD
