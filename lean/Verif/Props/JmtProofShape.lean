import Verif.Proofs.ProofShape
import Verif.Props.Examples
/-! Property C74: how long proofs are, and what they contain. -/

set_option autoImplicit false

namespace Verif.Props
open Verif Verif.Jmt Verif.Spec
variable {D : Type}

/-- **C74.** The proof that `get_with_proof` returns for any key `k` at a readable version has as many siblings as are needed to tell the present
keys apart along the path of `k`: at that depth at most one present key agrees with `k`, at every smaller depth two different ones do. There are at most
256. The siblings are, from the last to the first, the hashes of the subtrees beside the path; the leaf is the present key found at the end, if any. -/
theorem C74_proof_shape (H : Hasher D) (v0 next : Version) (ops : List Op) (s : Store D) (h : Reached H v0 ops s next) (v : Version)
    (hv : Readable v0 ops v) (k : Key) (L : List (Key × D)) (hL : Lists H (contentsAt v0 ops v) L) :
    ∃ p, Tree.getWithProof H s.reader k v = .ok (contentsAt v0 ops v k, p) ∧ p.siblings.length ≤ 256 ∧
      (∀ a b, (contentsAt v0 ops v a).isSome → (contentsAt v0 ops v b).isSome → agreeTo p.siblings.length a k = true →
        agreeTo p.siblings.length b k = true → a = b) ∧
      (∀ i, i < p.siblings.length → ∃ a b, a ≠ b ∧ (contentsAt v0 ops v a).isSome ∧ (contentsAt v0 ops v b).isSome ∧ agreeTo i a k = true ∧
        agreeTo i b k = true) ∧
      p.siblings.reverse = (List.range p.siblings.length).map (sibling H k L) ∧
      ∀ a d, p.leaf = some ⟨a, d⟩ ↔ (contentsAt v0 ops v a).map H.value = some d ∧ agreeTo p.siblings.length a k = true := by
  have hf := h.facts hv
  have hp := hf.hold.lists
  refine ⟨_, hf.getWithProof k, ?_⟩
  rw [smtPath_perm H k 256 (lists_perm hp hL)]
  have hlen : (proofOf (smtPath H k 256 L)).siblings.length = (smtPath H k 256 L).1.length := by simp [proofOf]
  obtain ⟨e1, e2⟩ := smtPath_ends_top H k L hL.1
  rw [hlen]
  have mem : ∀ {a : Key}, (contentsAt v0 ops v a).isSome → ∃ d, (a, d) ∈ L := by
    intro a ha
    obtain ⟨x, hx⟩ := Option.isSome_iff_exists.1 ha
    exact ⟨H.value x, (hL.2 _ _).2 (by rw [hx]; rfl)⟩
  have pres : ∀ {e : Key × D}, e ∈ L → (contentsAt v0 ops v e.1).isSome := by
    intro e he
    have := (hL.2 e.1 e.2).1 he
    cases hc : contentsAt v0 ops v e.1 with
    | none => rw [hc] at this; cases this
    | some x => rfl
  refine ⟨smtPath_length H k 256 L, fun a b ha hb hak hbk => ?_, fun i hi => ?_, ?_, fun a d => ?_⟩
  · obtain ⟨x, hx⟩ := mem ha
    obtain ⟨y, hy⟩ := mem hb
    have m1 : (a, x) ∈ (smtPath H k 256 L).2.toList := by rw [← e2]; exact List.mem_filter.2 ⟨hx, hak⟩
    have m2 : (b, y) ∈ (smtPath H k 256 L).2.toList := by rw [← e2]; exact List.mem_filter.2 ⟨hy, hbk⟩
    rw [Option.mem_toList] at m1 m2
    have := Option.some.inj (m1.symm.trans m2)
    exact (Prod.mk.inj this).1
  · have h2 := e1 i hi
    have hnd : ((L.filter (fun e => agreeTo i e.1 k)).map Prod.fst).Nodup := (List.filter_sublist.map _).nodup hL.1
    rcases hl : L.filter (fun e => agreeTo i e.1 k) with _ | ⟨a, _ | ⟨b, t⟩⟩
    · rw [hl] at h2; cases h2
    · rw [hl] at h2; exact absurd h2 (by simp)
    · have ma : a ∈ L.filter (fun e => agreeTo i e.1 k) := by rw [hl]; simp
      have mb : b ∈ L.filter (fun e => agreeTo i e.1 k) := by rw [hl]; simp
      rw [hl] at hnd
      refine ⟨a.1, b.1, ?_, pres (List.mem_filter.1 ma).1, pres (List.mem_filter.1 mb).1, (List.mem_filter.1 ma).2, (List.mem_filter.1 mb).2⟩
      intro he
      simp [he] at hnd
  · simp only [proofOf, List.reverse_reverse]
    exact smtPath_siblings_top H k L
  · have hleaf : (proofOf (smtPath H k 256 L)).leaf = some ⟨a, d⟩ ↔ (smtPath H k 256 L).2 = some (a, d) := by
      simp only [proofOf]
      rcases (smtPath H k 256 L).2 with _ | ⟨a', d'⟩ <;> simp
    rw [hleaf, ← hL.2, ← Option.mem_toList, ← e2, List.mem_filter]

/-- For a key that is present beside others, the number of siblings is one more than the greatest number of leading bits that another present key
shares with it. -/
theorem C74_present_key (H : Hasher D) (v0 next : Version) (ops : List Op) (s : Store D) (h : Reached H v0 ops s next) (v : Version)
    (hv : Readable v0 ops v) (k other : Key) (hk : (contentsAt v0 ops v k).isSome) (ho : (contentsAt v0 ops v other).isSome) (hne : other ≠ k) :
    ∃ p n, Tree.getWithProof H s.reader k v = .ok (contentsAt v0 ops v k, p) ∧ p.siblings.length = n + 1 ∧
      (∃ a, a ≠ k ∧ (contentsAt v0 ops v a).isSome ∧ agreeTo n a k = true) ∧
      ∀ b, b ≠ k → (contentsAt v0 ops v b).isSome → agreeTo (n + 1) b k = false := by
  have agree_self : ∀ i, agreeTo i k k = true := fun i => agreeTo_iff.2 fun _ _ => rfl
  obtain ⟨p, h1, -, h2, h3, -⟩ := C74_proof_shape H v0 next ops s h v hv k _ (h.facts hv).hold.lists
  have hpos : 0 < p.siblings.length := by
    by_contra hz
    exact hne (h2 other k ho hk (agreeTo_iff.2 fun j hj => by omega) (agree_self _))
  obtain ⟨x, y, hxy, hx, hy, ax, ay⟩ := h3 (p.siblings.length - 1) (by omega)
  have en : p.siblings.length - 1 + 1 = p.siblings.length := by omega
  refine ⟨p, p.siblings.length - 1, h1, en.symm, ?_, fun b hb pb => ?_⟩
  · by_cases hxk : x = k
    · exact ⟨y, fun e => hxy (hxk.trans e.symm), hy, ay⟩
    · exact ⟨x, hxk, hx, ax⟩
  · rw [en, Bool.eq_false_iff]
    exact fun ha => hb (h2 b k pb hk ha (agree_self _))

/-- In a version without keys, and for the only key of a version with one key, the proof has no siblings. -/
theorem C74_at_most_one_key (H : Hasher D) (v0 next : Version) (ops : List Op) (s : Store D) (h : Reached H v0 ops s next) (v : Version)
    (hv : Readable v0 ops v) (k : Key) (h1 : ∀ a b, (contentsAt v0 ops v a).isSome → (contentsAt v0 ops v b).isSome → a = b) :
    ∃ p, Tree.getWithProof H s.reader k v = .ok (contentsAt v0 ops v k, p) ∧ p.siblings = [] := by
  obtain ⟨p, hp, -, -, h3, -⟩ := C74_proof_shape H v0 next ops s h v hv k _ (h.facts hv).hold.lists
  refine ⟨p, hp, List.length_eq_zero_iff.1 ?_⟩
  by_contra hz
  obtain ⟨a, b, hne, ha, hb, -⟩ := h3 0 (by omega)
  exact hne (h1 a b ha hb)

/-- The keys of version 1 of `exOps`. -/
theorem exOps_keys1 (a : Key) (h : (contentsAt 0 exOps 1 a).isSome) : a = key 1 2 ∨ a = key 0x80 0 ∨ a = key 0xF0 0 := by
  obtain ⟨s, hr⟩ := exOps_reached
  have hl := (hr.facts exOps_readable1).hold.lists
  obtain ⟨x, hx⟩ := Option.isSome_iff_exists.1 h
  have hm := (hl.2 a (termHasher.value x)).2 (by rw [hx]; rfl)
  have hk : (treeAt termHasher 0 (commitsOf exOps) 1).entries.map Prod.fst = [key 1 2, key 0x80 0, key 0xF0 0] := by decide +kernel
  have := List.mem_map_of_mem (f := Prod.fst) hm
  rw [hk] at this
  simpa using this

/-- The key `0x80…` shares its first bit with `0xF0…`, and nothing with the third key: its proof has two siblings. -/
example : ∃ s p, Reached termHasher 0 exOps s 3 ∧ Tree.getWithProof termHasher s.reader (key 0x80 0) 1 = .ok (some [5], p) ∧ p.siblings.length = 2 := by
  obtain ⟨s, h⟩ := exOps_reached
  have hc : contentsAt 0 exOps 1 (key 0x80 0) = some [5] := by decide +kernel
  obtain ⟨p, n, h1, h2, ⟨a, ha, pa, aa⟩, h4⟩ := C74_present_key termHasher _ _ _ _ h _ exOps_readable1 (key 0x80 0) (key 0xF0 0) (by decide +kernel)
    (by decide +kernel) (by decide +kernel)
  refine ⟨s, p, h, by rw [h1, hc], ?_⟩
  have hb := h4 (key 0xF0 0) (by decide +kernel) (by decide +kernel)
  rw [h2]
  have h5 : n ≠ 0 := by
    rintro rfl
    revert hb
    decide +kernel
  have h6 : agreeTo 2 a (key 0x80 0) = false := by
    rcases exOps_keys1 a pa with rfl | rfl | rfl
    · decide +kernel
    · exact absurd rfl ha
    · decide +kernel
  have h7 : n < 2 := by
    by_contra hn
    have : agreeTo 2 a (key 0x80 0) = true := agreeTo_iff.2 fun j hj => agreeTo_iff.1 aa j (by omega)
    rw [h6] at this
    cases this
  omega

/-- A version with one key. -/
example : ∃ s p, Reached termHasher 0 [.update true [[(key 3 4, some [1])]]] s 1 ∧
    Tree.getWithProof termHasher s.reader (key 9 9) 0 = .ok (none, p) ∧ p.siblings = [] := by
  obtain ⟨s, h⟩ : ∃ s, Reached termHasher 0 [.update true [[(key 3 4, some [1])]]] s 1 :=
    Reached.exists termHasher ⟨.inl rfl, by simp [commitsOf, Op.commits]⟩
  have hr : Readable 0 [.update true [[(key 3 4, some [1])]]] 0 := ⟨by decide, by decide, .inr rfl⟩
  obtain ⟨p, h1, h2⟩ := C74_at_most_one_key termHasher _ _ _ _ h _ hr (key 9 9) (by
    have hk : ∀ a, (contentsAt 0 [.update true [[(key 3 4, some [1])]]] 0 a).isSome → a = key 3 4 := by
      intro a ha
      by_contra hne
      revert ha
      simp [contentsAt, contents, applyUpdates, Commit.updates, commitsOf, Op.commits, hne]
    intro a b ha hb
    rw [hk a ha, hk b hb])
  have hc : contentsAt 0 [.update true [[(key 3 4, some [1])]]] 0 (key 9 9) = none := by decide +kernel
  exact ⟨s, p, h, by rw [h1, hc], h2⟩

end Verif.Props
