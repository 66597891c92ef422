import Verif.Props.PmtIter
import Verif.Props.PmtMarks
/-! When iterating a trie panics: C45 in terms of what removals leave behind (C100). -/

set_option autoImplicit false

namespace Verif.Props
open Verif Verif.Pmt PmtEx
open Verif.Pmt.PT
variable {K : Keccak}

theorem canon_of_loose {t : PT} (h : Loose (fun _ => False) t) : Canon t := by
  induction t with
  | empty => trivial
  | leaf => trivial
  | ext p t ih => exact ⟨h.1, h.2.1, ih h.2.2⟩
  | branch cs v ih => exact ⟨fun i => ih i (h.1 i), h.2.elim id False.elim⟩

/-- A trie with the empty key is a leaf of the empty path or a branch with a value. -/
theorem empty_key_shape {t : PT} {d : Nat} (hok : Ok t d) (h : (t.get []).isSome) : (∃ v, t = .leaf [] v) ∨ ∃ cs v, t = .branch cs (some v) := by
  cases t with
  | empty => cases h
  | leaf x v =>
    by_cases hx : x = []
    · exact .inl ⟨v, by rw [hx]⟩
    · simp only [PT.get, if_neg hx] at h
      cases h
  | ext q t =>
    exfalso
    have hq : q ≠ [] := hok.1
    have : lcp [] q ≠ q.length := by
      intro h
      obtain ⟨r, hr⟩ := lcp_eq_length.1 h
      exact hq (List.append_eq_nil_iff.1 hr).1
    simp only [PT.get, if_neg this] at h
    cases h
  | branch cs v =>
    cases v with
    | none => cases h
    | some v => exact .inr ⟨cs, v, rfl⟩

/-- **C45**, exactly when it holds. After any program on an archive database, of every trie with the entries `J` there is a list `B` of keys at which
removals have left branches, so that `commit` returns the root hash for `J` with branches at `B` (C100), and
* if the empty key is absent, or is the only one and `B` is empty, iterating yields the pairs of the map in increasing order of the keys, and ends;
* if the empty key is present, and another key is or `B` is not empty, the first call of `next` panics;
or two different stored byte strings have the same hash. -/
theorem C45_exactly {ops : List Op} (hfit : ∀ op ∈ ops, Spec.Fits op) {s : Sys} {rs : List Ret}
    (hrun : (Sys.new false).run K ops = .ok (s, rs)) {i : Nat} {tr : Trie} (htr : s.tries[i]? = some tr) {x : Spec.Marked}
    (hx : (Spec.mrun ops).maps[i]? = some x) {J : List (Bytes × Bytes)} (hJ : Yellow.Lists J x.map) :
    Spec.Collision K s.db.log ∨ ∃ B : List Bytes, (∀ k ∈ B, x.marks k) ∧
      (∃ tr' db', tr.commit K s.db = .ok (tr', db', .ok (Yellow.markedRoot K B J))) ∧
      (x.map [] = none ∨ (B = [] ∧ ∀ k, k ≠ [] → x.map k = none) →
        ∃ l : List (Bytes × Bytes), (∃ N, ∀ fuel, N ≤ fuel → tr.values fuel s.db = .ok l) ∧
          l.Pairwise (fun a b => a.1 < b.1) ∧ ∀ k v, (k, v) ∈ l ↔ x.map k = some v) ∧
      ((x.map []).isSome → (B ≠ [] ∨ ∃ k, k ≠ [] ∧ (x.map k).isSome) →
        ∃ N, ∀ fuel, N ≤ fuel → Iter.next s.db fuel (Iter.new tr) = .error (.panic "attempt to subtract with overflow")) := by
  rcases collision_or K s.db.log with hc | hc
  · exact .inl hc
  have g := SysM.new (K := K) |>.run hfit hrun hc
  obtain ⟨h0, t, h1, h2, h3, h4⟩ := g.tries.2 i tr x htr hx
  obtain ⟨B, hB1, hB2⟩ := thin_marks h4
  refine .inr ⟨B, hB1, ?_, fun he => ?_, fun he ho => ?_⟩
  · have hq : HandleQ K (fun u => u = t) s.db tr x.map := ⟨h0, t, h1, h2, h3, rfl⟩
    obtain ⟨a, b, u, e, _, _, _, _, _, _, rfl, _⟩ := Trie.commit_q g.db hq
    rw [Yellow.markedRoot_eq (K := K) hJ h3 h2 hB2] at e
    exact ⟨a, b, e⟩
  · have hcn : B = [] → Canon t := by
      rintro rfl
      refine canon_of_loose (loose_of_thin h4 (fun y hy => ?_))
      have := (hB2 y).2 hy
      cases this
    obtain ⟨l, k1, k2⟩ := visits_pairs (P := B = []) (g.db.reads hc) ⟨h0, t, h1, h2, h3, hcn⟩ he
    exact ⟨l, k1.values rfl, k2⟩
  · have he' : (t.get []).isSome := by
      have := h3.get []
      rw [show nibsOf [] = [] from rfl] at this
      rw [this]; exact he
    rcases empty_key_shape h2 he' with ⟨v, rfl⟩ | ⟨cs, v, rfl⟩
    · exfalso
      rcases ho with hB | ⟨k, hk, hkm⟩
      · obtain ⟨b, hb⟩ := List.exists_mem_of_ne_nil B hB
        exact (hB2 (Yellow.nibbles b)).1 (List.mem_map_of_mem hb)
      · rw [← h3.get k] at hkm
        have hne : [] ≠ nibsOf k := fun e => hk (nibsOf_inj (b := []) e.symm)
        simp only [PT.get, if_neg hne] at hkm
        cases hkm
    · exact root_value_panics (g.db.reads hc) h2 h1

/-- There is a branch at the removed key `[1]`, and no empty key: iterating yields the one pair. -/
example : ∃ l : List (Bytes × Bytes), (∃ N, ∀ fuel, N ≤ fuel → (handle false markOps 0).values fuel (result false markOps).1.db = .ok l) ∧
    ∀ k v, (k, v) ∈ l ↔ markTrie.map k = some v := by
  rcases C45_exactly markOps_fits markOps_run (i := 0) (tr := handle false markOps 0) (handle_eq (by decide +kernel)) markTrie_eq
    markTrie_lists with h | ⟨B, _, _, h, _⟩
  · exact absurd h (by decide +kernel)
  · obtain ⟨l, h1, _, h2⟩ := h (.inl (by rw [markTrie_map]; rfl))
    exact ⟨l, h1, h2⟩

/-- The empty key is removed and entered again while there is another key, which is removed then. -/
def loneOps : List Op := [.new, .insert 0 [] [5], .insert 0 [1] [6], .remove 0 [], .insert 0 [] [7], .remove 0 [1]]

/-- The trie of the example before the last call. -/
def beforeLone : Spec.Marked := ((Spec.mrun loneOps.dropLast).maps[0]?).getD ⟨fun _ => none, fun _ => False⟩

theorem beforeLone_map (k : Bytes) : beforeLone.map k = if k = [] then some [7] else if k = [1] then some [6] else none := by
  simp only [beforeLone, loneOps, List.dropLast, Spec.mrun, Spec.mstep, Spec.MState.update, Spec.Marked.remove, Spec.Marked.insert, Spec.Marked.tidy, List.foldl_cons,
    List.foldl_nil, List.nil_append, List.getElem?_cons_zero, List.set_cons_zero, Option.getD_some, show ([5] : Bytes) ≠ [] by decide,
    show ([6] : Bytes) ≠ [] by decide, show ([7] : Bytes) ≠ [] by decide, if_false]
  by_cases h1 : k = [] <;> by_cases h2 : k = [1] <;> simp_all [Spec.Map.set]

theorem beforeLone_marks (k : Bytes) : ¬ beforeLone.marks k := by
  rintro ⟨⟨h | ⟨rfl, _⟩, _⟩, hn⟩
  · exact h.1.1
  · refine hn (.inr ⟨?_, [1], ⟨[1], by simp, rfl⟩, ?_⟩)
    · show (beforeLone.map []).isSome
      rw [beforeLone_map]; rfl
    · show (beforeLone.map [1]).isSome
      rw [beforeLone_map]; rfl

/-- Nothing is left behind, and the empty key is the only one: iterating yields it. -/
example : ∃ l : List (Bytes × Bytes), (∃ N, ∀ fuel, N ≤ fuel → (handle false loneOps 0).values fuel (result false loneOps).1.db = .ok l) ∧
    ([], [7]) ∈ l := by
  have hmap : ∀ k, (beforeLone.remove [1]).map k = if k = [] then some [7] else none := by
    intro k
    show (beforeLone.map.set [1] none) k = _
    unfold Spec.Map.set
    rw [beforeLone_map]
    by_cases h1 : k = [] <;> by_cases h2 : k = [1] <;> simp_all
  have hmarks : ∀ k, ¬ (beforeLone.remove [1]).marks k := by
    rintro k ⟨h | ⟨_, _, k', ⟨t, ht, rfl⟩, h | h⟩, _⟩
    · exact beforeLone_marks k h
    · rw [beforeLone_map] at h
      simp [ht] at h
    · exact beforeLone_marks _ h
  have hlist : Yellow.Lists [([], [7])] (beforeLone.remove [1]).map := by
    refine ⟨by simp, fun k v => ?_⟩
    rw [hmap]
    by_cases h : k = [] <;> simp_all [eq_comm]
  rcases C45_exactly (K := exK) (ops := loneOps) (s := (result false loneOps).1) (rs := (result false loneOps).2) (by simp [loneOps, Spec.Fits])
    (result_eq (by decide +kernel)) (i := 0) (tr := handle false loneOps 0) (handle_eq (by decide +kernel)) (x := beforeLone.remove [1]) rfl hlist
    with h | ⟨B, hB, _, h, _⟩
  · exact absurd h (by decide +kernel)
  · have hB0 : B = [] := List.eq_nil_iff_forall_not_mem.2 (fun k hk => hmarks k (hB k hk))
    obtain ⟨l, h1, _, h2⟩ := h (.inr ⟨hB0, fun k hk => by rw [hmap, if_neg hk]⟩)
    exact ⟨l, h1, (h2 _ _).2 (by rw [hmap]; rfl)⟩

end Verif.Props
