import Verif.Proofs.Ics23
import Verif.Proofs.RestoreSibling
import Verif.Spec.Ics23Inputs
/-! Soundness of the ICS23 verification against the published spec: a proof that passes is the path of an entry of the tree. -/

set_option autoImplicit false

namespace Verif.Jmt
open Verif.Spec Verif.Ics23 Tree

variable {sha : List UInt8 → Key} {host : Host}

theorem ByteClash.mono {xs xs' ys ys' : List Bytes} (h : ByteClash sha xs ys) (hx : ∀ x ∈ xs, x ∈ xs') (hy : ∀ y ∈ ys, y ∈ ys') :
    ByteClash sha xs' ys' := by
  rcases h with ⟨x, h1, y, h2, h3⟩ | ⟨x, h1, h2⟩
  · exact .inl ⟨x, hx x h1, y, hy y h2, h3⟩
  · refine .inr ⟨x, ?_, h2⟩
    rcases List.mem_append.1 h1 with h | h
    · exact List.mem_append_left _ (hx x h)
    · exact List.mem_append_right _ (hy x h)

theorem evalPath_snoc (path : List InnerOp) (op : InnerOp) (h : Key) :
    evalPath sha (path ++ [op]) h = sha (op.pre ++ (evalPath sha path h).bytes ++ op.suf) := by
  simp [evalPath, List.foldl_append]

theorem pathHashed_snoc (path : List InnerOp) (op : InnerOp) (h : Key) :
    pathHashed sha (path ++ [op]) h = pathHashed sha path h ++ [op.pre ++ (evalPath sha path h).bytes ++ op.suf] := by
  induction path generalizing h with
  | nil => rfl
  | cons o path ih => simp only [List.cons_append, pathHashed, ih]; rfl

/-- What `ensure_inner` establishes. -/
structure InnerOk (op : InnerOp) : Prop where
  hash : op.hash = sha256
  notLeaf : ¬ leafDomainSeparator <+: op.pre
  min : 16 ≤ op.pre.length
  max : op.pre.length ≤ 48
  suf : op.suf.length % 32 = 0

theorem InnerOk.of {op : InnerOp} (h : ensureInner op ics23Spec = .ok ()) : InnerOk op := by
  unfold ensureInner at h
  rw [ensure_ok_iff, decide_eq_true_eq] at h
  obtain ⟨h1, h2, h3, h4, _, h6⟩ := h
  exact ⟨h1, h2, h3, h4, h6⟩

/-- The verification of an existence proof, taken apart. -/
theorem verifyExistence_parts (hh : ShaHost sha host) {p : ExistenceProof} {root key value : Bytes}
    (h : verifyExistence host p ics23Spec root key value = .ok ()) :
    p.key = key ∧ p.value = value ∧ (∀ op ∈ p.path, InnerOk op) ∧
      ∃ leaf, p.leaf = some leaf ∧ leafDomainSeparator <+: leaf.pre ∧
        (evalPath sha p.path (sha (leaf.pre ++ (sha key).bytes ++ (sha value).bytes))).bytes = root := by
  unfold verifyExistence at h
  obtain ⟨_, h1, h⟩ := Res.bind_ok_iff.1 h
  obtain ⟨_, h2, h⟩ := Res.bind_ok_iff.1 h
  obtain ⟨_, h3, h⟩ := Res.bind_ok_iff.1 h
  obtain ⟨top, h4, h5⟩ := Res.bind_ok_iff.1 h
  rw [ensure_ok_iff, decide_eq_true_eq] at h2 h3 h5
  subst h2 h3 h5
  unfold checkExistenceSpec at h1
  cases hl : p.leaf with
  | none => rw [hl] at h1; cases h1
  | some leaf =>
    rw [hl] at h1
    obtain ⟨_, g1, h1⟩ := Res.bind_ok_iff.1 h1
    obtain ⟨_, _, h1⟩ := Res.bind_ok_iff.1 h1
    obtain ⟨_, _, h1⟩ := Res.bind_ok_iff.1 h1
    rw [allOk_iff] at h1
    unfold ensureLeaf at g1
    rw [ensure_ok_iff, decide_eq_true_eq] at g1
    obtain ⟨e1, e2, e3, e4, e5⟩ := g1
    have hok : ∀ op ∈ p.path, InnerOk op := fun op hop => InnerOk.of (h1 op hop)
    refine ⟨rfl, rfl, hok, leaf, rfl, e5, ?_⟩
    unfold calculateRoot at h4
    obtain ⟨_, _, h4⟩ := Res.bind_ok_iff.1 h4
    obtain ⟨_, _, h4⟩ := Res.bind_ok_iff.1 h4
    rw [hl] at h4
    obtain ⟨lh, g2, h4⟩ := Res.bind_ok_iff.1 h4
    have hlh : lh = (sha (leaf.pre ++ (sha p.key).bytes ++ (sha p.value).bytes)).bytes := by
      unfold applyLeaf prepareLeafData at g2
      rw [e1, e2, e3, e4] at g2
      obtain ⟨a, g3, g2⟩ := Res.bind_ok_iff.1 g2
      obtain ⟨_, _, g3⟩ := Res.bind_ok_iff.1 g3
      obtain ⟨a', g5, g3⟩ := Res.bind_ok_iff.1 g3
      obtain ⟨b, g4, g2⟩ := Res.bind_ok_iff.1 g2
      obtain ⟨_, _, g4⟩ := Res.bind_ok_iff.1 g4
      obtain ⟨b', g6, g4⟩ := Res.bind_ok_iff.1 g4
      have q1 := hh.hash p.key
      have q2 := hh.hash p.value
      change host.hash sha256 p.key = _ at g5
      change host.hash sha256 p.value = _ at g6
      change host.length noPrefix _ = _ at g3
      change host.length noPrefix _ = _ at g4
      change host.hash sha256 _ = _ at g2
      rw [q1] at g5; cases g5
      rw [q2] at g6; cases g6
      rw [hh.length] at g3 g4
      cases g3; cases g4
      rw [hh.hash] at g2
      cases g2; rfl
    subst hlh
    generalize sha (leaf.pre ++ (sha p.key).bytes ++ (sha p.value).bytes) = x at h4 ⊢
    have hp := hok
    generalize p.path = path at h4 hp ⊢
    have hcs : ics23Spec.innerSpec.childSize = 32 := rfl
    rw [hcs] at h4
    clear hl h1 hok e1 e2 e3 e4 e5
    induction path generalizing x with
    | nil => simp only [climbPath] at h4; cases h4; rfl
    | cons op path ih =>
      unfold climbPath at h4
      obtain ⟨h', g1, h4⟩ := Res.bind_ok_iff.1 h4
      obtain ⟨_, _, h4⟩ := Res.bind_ok_iff.1 h4
      unfold applyInner at g1
      obtain ⟨_, _, g1⟩ := Res.bind_ok_iff.1 g1
      rw [(hp op (by simp)).hash, hh.hash] at g1
      cases g1
      exact ih _ h4 (fun o ho => hp o (by simp [ho]))

theorem leaf_ne_internal {pre a : Bytes} (h : leafDomainSeparator <+: pre) (x y : Key) : pre ++ a ≠ internalBytes x y := by
  intro he
  have : leafDomainSeparator <+: internalBytes x y := he ▸ h.trans (List.prefix_append _ _)
  unfold internalBytes at this
  rw [List.append_assoc] at this
  exact leaf_not_prefix_inner _ this

theorem inner_ne_leaf {op : InnerOp} (h : InnerOk op) (a : Bytes) (x y : Key) : op.pre ++ a ≠ leafBytes x y := by
  intro he
  apply h.notLeaf
  have h1 : leafDomainSeparator <+: op.pre ++ a := by
    rw [he]; unfold leafBytes
    rw [List.append_assoc]
    exact List.prefix_append _ _
  refine List.prefix_of_prefix_length_le h1 (List.prefix_append _ _) ?_
  have : leafDomainSeparator.length = 13 := rfl
  have := h.min
  omega

/-- An inner operation that hashes an internal node is that of one of the two children. -/
theorem inner_eq_internal {op : InnerOp} (h : InnerOk op) (c x y : Key) (he : op.pre ++ c.bytes ++ op.suf = internalBytes x y) :
    (op = toInnerOp y false ∧ c = x) ∨ (op = toInnerOp x true ∧ c = y) := by
  have hlen := congrArg List.length he
  have hi : internalDomainSeparator.length = 16 := rfl
  simp only [internalBytes, List.length_append, c.len, x.len, y.len, hi] at hlen
  have h1 := h.min
  have h2 := h.max
  have h3 := h.suf
  have h4 := h.hash
  obtain ⟨hash, pre, suf⟩ := op
  simp only at *
  subst h4
  unfold internalBytes at he
  rcases (by omega : suf.length = 32 ∧ pre.length = 16 ∨ suf.length = 0 ∧ pre.length = 48) with ⟨h5, h6⟩ | ⟨h5, h6⟩
  · left
    obtain ⟨e1, e2⟩ := List.append_inj he (by simp [c.len, x.len, h6, hi])
    obtain ⟨e3, e4⟩ := List.append_inj e1 (by simp [h6, hi])
    subst e2 e3
    exact ⟨rfl, Key.ext_bytes e4⟩
  · right
    have h0 : suf = [] := List.length_eq_zero_iff.1 h5
    subst h0
    rw [List.append_nil] at he
    obtain ⟨e1, e2⟩ := List.append_inj he (by simp [x.len, h6, hi])
    subst e1
    exact ⟨rfl, Key.ext_bytes e2⟩

theorem filter_bne {D : Type} (l : List (Key × D)) (i : Nat) (b : Bool) :
    l.filter (fun e => e.1.bit i != b) = l.filter (fun e => e.1.bit i == !b) := by
  congr 1
  funext e
  cases e.1.bit i <;> cases b <;> rfl

/-- A path that evaluates to the root of the tree over `l` is the path of an entry, or two different byte strings collide. -/
theorem path_sound (pre : Bytes) (hpre : leafDomainSeparator <+: pre) (k v : Key) (path : List InnerOp) (hp : ∀ op ∈ path, InnerOk op)
    (n : Nat) (hn : n ≤ 256) {l : List (Key × Key)} (hl : Agree n l)
    (he : evalPath sha path (sha (pre ++ k.bytes ++ v.bytes)) = smt (shaHasher sha) n l) :
    ((k, v) ∈ l ∧ path.reverse = opsOf (steps (shaHasher sha) k n l)) ∨
    ByteClash sha ((pre ++ k.bytes ++ v.bytes) :: pathHashed sha path (sha (pre ++ k.bytes ++ v.bytes)))
      ((smtInputs (shaHasher sha) n l).map nodeBytes) := by
  induction path using List.reverseRecOn generalizing n l with
  | nil =>
    simp only [evalPath, List.foldl_nil] at he
    rcases list_cases l with rfl | ⟨⟨k', v'⟩, rfl⟩ | h2
    · right
      rw [smt_nil] at he
      exact .inr ⟨_, List.mem_append_left _ List.mem_cons_self, he⟩
    · rw [smt_single] at he
      by_cases heq : pre ++ k.bytes ++ v.bytes = leafBytes k' v'
      · left
        unfold leafBytes at heq
        obtain ⟨e1, e2⟩ := List.append_inj' heq (by rw [v.len, v'.len])
        obtain ⟨e3, e4⟩ := List.append_inj' e1 (by rw [k.len, k'.len])
        rw [Key.ext_bytes e4, Key.ext_bytes e2]
        exact ⟨by simp, by simp [steps, opsOf]⟩
      · right
        refine .inl ⟨_, List.mem_cons_self, leafBytes k' v', ?_, heq, he⟩
        rw [smtInputs_single]
        simp [nodeBytes]
    · cases n with
      | zero => have := hl.zero; omega
      | succ n =>
        right
        rw [smt_two' _ n l h2] at he
        refine .inl ⟨_, List.mem_cons_self, _, ?_, ?_, he⟩
        · rw [smtInputs_two _ n l h2]
          refine List.mem_map.2 ⟨_, List.mem_cons_self, ?_⟩
          unfold nodeBytes
          simp only
          congr 3
          · funext e; simp
          · funext e; simp
        · rw [List.append_assoc]; exact leaf_ne_internal hpre _ _
  | append_singleton path op ih =>
    rw [evalPath_snoc] at he
    rw [pathHashed_snoc]
    have hop := hp op (by simp)
    have hmem : ∀ x, x = op.pre ++ (evalPath sha path (sha (pre ++ k.bytes ++ v.bytes))).bytes ++ op.suf →
        x ∈ (pre ++ k.bytes ++ v.bytes) :: (pathHashed sha path (sha (pre ++ k.bytes ++ v.bytes)) ++
          [op.pre ++ (evalPath sha path (sha (pre ++ k.bytes ++ v.bytes))).bytes ++ op.suf]) := by
      rintro x rfl
      simp
    rcases list_cases l with rfl | ⟨⟨k', v'⟩, rfl⟩ | h2
    · right
      rw [smt_nil] at he
      exact .inr ⟨_, List.mem_append_left _ (hmem _ rfl), he⟩
    · right
      rw [smt_single] at he
      refine .inl ⟨_, hmem _ rfl, leafBytes k' v', ?_, ?_, he⟩
      · rw [smtInputs_single]; simp [nodeBytes]
      · rw [List.append_assoc]; exact inner_ne_leaf hop _ _ _
    · cases n with
      | zero => have := hl.zero; omega
      | succ n =>
        rw [smt_two' _ n l h2] at he
        by_cases heq : op.pre ++ (evalPath sha path (sha (pre ++ k.bytes ++ v.bytes))).bytes ++ op.suf =
            internalBytes (smt (shaHasher sha) n (l.filter (fun e => e.1.bit (256 - (n + 1)) == false)))
              (smt (shaHasher sha) n (l.filter (fun e => e.1.bit (256 - (n + 1)) == true)))
        · -- the side taken
          have hside : ∃ b, op = toInnerOp (smt (shaHasher sha) n (l.filter (fun e => e.1.bit (256 - (n + 1)) == !b))) b ∧
              evalPath sha path (sha (pre ++ k.bytes ++ v.bytes)) =
                smt (shaHasher sha) n (l.filter (fun e => e.1.bit (256 - (n + 1)) == b)) := by
            rcases inner_eq_internal hop _ _ _ heq with ⟨h3, h4⟩ | ⟨h3, h4⟩
            · exact ⟨false, h3, h4⟩
            · exact ⟨true, h3, h4⟩
          obtain ⟨b, h3, h4⟩ := hside
          rcases ih (fun o ho => hp o (by simp [ho])) n (by omega) (hl.half _ b (by intro e he; simpa using he)) h4 with ⟨h5, h6⟩ | hc
          · left
            rw [List.mem_filter] at h5
            have hb : k.bit (256 - (n + 1)) = b := beq_iff_eq.1 h5.2
            refine ⟨h5.1, ?_⟩
            rw [List.reverse_append, steps_two _ k n (by omega) l h2, hb, filter_bne, h6, h3]
            rfl
          · right
            refine ByteClash.mono hc ?_ ?_
            · intro x hx
              rcases List.mem_cons.1 hx with rfl | hx
              · exact List.mem_cons_self
              · exact List.mem_cons_of_mem _ (List.mem_append_left _ hx)
            · intro y hy
              obtain ⟨z, hz, rfl⟩ := List.mem_map.1 hy
              exact List.mem_map_of_mem (smtInputs_half _ n l b z hz)
        · right
          refine .inl ⟨_, hmem _ rfl, _, ?_, heq, he⟩
          rw [smtInputs_two _ n l h2]
          refine List.mem_map.2 ⟨_, List.mem_cons_self, ?_⟩
          unfold nodeBytes
          simp only
          congr 3
          · funext e; simp
          · funext e; simp

/-! ### the order checks, backwards -/

theorem of_rightMost {D : Type} (H : Hasher D) (k : Key) (n : Nat) (hn : n ≤ 256) {l : List (Key × D)} (hl : Agree n l)
    (hc : NoPlaceholder H (smtInputs H n l)) {h : D} (hm : (k, h) ∈ l) (hr : RightMost H (steps H k n l)) : ∀ e ∈ l, ¬ k < e.1 := by
  induction n generalizing l with
  | zero =>
    match l, hl.zero, hm with
    | [a], _, hm =>
      intro e he hlt
      simp only [List.mem_singleton] at he hm
      rw [he, ← hm] at hlt
      exact Key.lt_irrefl _ hlt
  | succ n ih =>
    rcases list_cases l with rfl | ⟨a, rfl⟩ | h2
    · simp at hm
    · intro e he hlt
      simp only [List.mem_singleton] at he hm
      rw [he, ← hm] at hlt
      exact Key.lt_irrefl _ hlt
    · rw [steps_two H k n (by omega) l h2] at hr
      intro e he hlt
      by_cases hb : e.1.bit (256 - (n + 1)) = k.bit (256 - (n + 1))
      · refine ih (by omega) (hl.half _ (k.bit (256 - (n + 1))) (by intro e he; simpa using he)) (hc.mono (smtInputs_half H n l _))
          (List.mem_filter.2 ⟨hm, by simp⟩) (fun sb hsb => hr sb (List.mem_cons_of_mem _ hsb)) e ?_ hlt
        exact List.mem_filter.2 ⟨he, beq_iff_eq.2 hb⟩
      · have h0 := hr _ List.mem_cons_self
        simp only at h0
        cases hk : k.bit (256 - (n + 1)) with
        | true =>
          have he0 : e.1.bit (256 - (n + 1)) = false := by
            cases h' : e.1.bit (256 - (n + 1)) with
            | false => rfl
            | true => exact absurd (h'.trans hk.symm) hb
          exact List.lt_asymm (show e.1.bytes < k.bytes from lt_of_bit (by omega) hl he hm he0 hk) hlt
        | false =>
          rw [hk] at h0
          rcases h0 with h0 | h0
          · cases h0
          · rw [filter_bne, smt_eq_placeholder (by
              rintro rfl
              exact (hl.half _ true (by intro e he; simpa using he)).zero) (hc.mono (smtInputs_half H n l _))] at h0
            have : e ∈ l.filter (fun e => e.1.bit (256 - (n + 1)) == !false) := by
              refine List.mem_filter.2 ⟨he, ?_⟩
              cases h' : e.1.bit (256 - (n + 1)) with
              | true => rfl
              | false => exact absurd (h'.trans hk.symm) hb
            rw [h0] at this
            simp at this

theorem of_leftMost {D : Type} (H : Hasher D) (k : Key) (n : Nat) (hn : n ≤ 256) {l : List (Key × D)} (hl : Agree n l)
    (hc : NoPlaceholder H (smtInputs H n l)) {h : D} (hm : (k, h) ∈ l) (hr : LeftMost H (steps H k n l)) : ∀ e ∈ l, ¬ e.1 < k := by
  induction n generalizing l with
  | zero =>
    match l, hl.zero, hm with
    | [a], _, hm =>
      intro e he hlt
      simp only [List.mem_singleton] at he hm
      rw [he, ← hm] at hlt
      exact Key.lt_irrefl _ hlt
  | succ n ih =>
    rcases list_cases l with rfl | ⟨a, rfl⟩ | h2
    · simp at hm
    · intro e he hlt
      simp only [List.mem_singleton] at he hm
      rw [he, ← hm] at hlt
      exact Key.lt_irrefl _ hlt
    · rw [steps_two H k n (by omega) l h2] at hr
      intro e he hlt
      by_cases hb : e.1.bit (256 - (n + 1)) = k.bit (256 - (n + 1))
      · refine ih (by omega) (hl.half _ (k.bit (256 - (n + 1))) (by intro e he; simpa using he)) (hc.mono (smtInputs_half H n l _))
          (List.mem_filter.2 ⟨hm, by simp⟩) (fun sb hsb => hr sb (List.mem_cons_of_mem _ hsb)) e ?_ hlt
        exact List.mem_filter.2 ⟨he, beq_iff_eq.2 hb⟩
      · have h0 := hr _ List.mem_cons_self
        simp only at h0
        cases hk : k.bit (256 - (n + 1)) with
        | false =>
          have he0 : e.1.bit (256 - (n + 1)) = true := by
            cases h' : e.1.bit (256 - (n + 1)) with
            | true => rfl
            | false => exact absurd (h'.trans hk.symm) hb
          exact List.lt_asymm (show k.bytes < e.1.bytes from lt_of_bit (by omega) hl hm he hk he0) hlt
        | true =>
          rw [hk] at h0
          rcases h0 with h0 | h0
          · cases h0
          · rw [filter_bne, smt_eq_placeholder (by
              rintro rfl
              exact (hl.half _ false (by intro e he; simpa using he)).zero) (hc.mono (smtInputs_half H n l _))] at h0
            have : e ∈ l.filter (fun e => e.1.bit (256 - (n + 1)) == !true) := by
              refine List.mem_filter.2 ⟨he, ?_⟩
              cases h' : e.1.bit (256 - (n + 1)) with
              | false => rfl
              | true => exact absurd (h'.trans hk.symm) hb
            rw [h0] at this
            simp at this

theorem of_neighbour (a b : Key) (n : Nat) (hn : n ≤ 256) {l : List (Key × Key)} (hl : Agree n l)
    (hc : NoPlaceholder (shaHasher sha) (smtInputs (shaHasher sha) n l)) {x y : Key} (ha : (a, x) ∈ l) (hb : (b, y) ∈ l)
    (h : leftNeighborLoop ics23Spec.innerSpec (opsOf (steps (shaHasher sha) a n l)) (opsOf (steps (shaHasher sha) b n l)) = .ok ()) :
    ∀ e ∈ l, ¬ (a < e.1 ∧ e.1 < b) := by
  induction n generalizing l with
  | zero =>
    match l, hl.zero with
    | [], _ => simp at ha
    | [e], _ => simp [steps, opsOf, leftNeighborLoop] at h
  | succ n ih =>
    rcases list_cases l with rfl | ⟨e, rfl⟩ | h2
    · simp at ha
    · simp [steps, opsOf, leftNeighborLoop] at h
    · rw [steps_two _ a n (by omega) l h2, steps_two _ b n (by omega) l h2] at h
      simp only [opsOf, List.map_cons, leftNeighborLoop] at h
      rintro e he ⟨h3, h4⟩
      split at h
      · rename_i hop
        obtain ⟨_, hbit⟩ := toInnerOp_inj hop.1 hop.2
        rw [hbit] at h
        have heb : e.1.bit (256 - (n + 1)) = b.bit (256 - (n + 1)) := by
          cases h' : e.1.bit (256 - (n + 1)) with
          | true =>
            cases h'' : b.bit (256 - (n + 1)) with
            | true => rfl
            | false => exact absurd h4 (List.lt_asymm (show b.bytes < e.1.bytes from lt_of_bit (by omega) hl hb he h'' h'))
          | false =>
            cases h'' : b.bit (256 - (n + 1)) with
            | false => rfl
            | true =>
              exact absurd h3 (List.lt_asymm (show e.1.bytes < a.bytes from lt_of_bit (by omega) hl he ha h' (hbit.trans h'')))
        exact ih (by omega) (hl.half _ (b.bit (256 - (n + 1))) (by intro e he; simpa using he)) (hc.mono (smtInputs_half _ n l _))
          (List.mem_filter.2 ⟨ha, beq_iff_eq.2 hbit⟩) (List.mem_filter.2 ⟨hb, by simp⟩) h e (List.mem_filter.2 ⟨he, beq_iff_eq.2 heb⟩) ⟨h3, h4⟩
      · obtain ⟨s, g1, h⟩ := Res.bind_ok_iff.1 h
        obtain ⟨_, g2, h⟩ := Res.bind_ok_iff.1 h
        obtain ⟨_, g3, g4⟩ := Res.bind_ok_iff.1 h
        rw [ensure_ok_iff] at g2
        subst g2
        simp only [isLeftStep, order_ok, Res.ok_bind, Res.pure_eq, Except.ok.injEq, decide_eq_true_eq] at g1
        have hab : a.bit (256 - (n + 1)) = false ∧ b.bit (256 - (n + 1)) = true := by
          generalize a.bit (256 - (n + 1)) = p at g1 ⊢
          generalize b.bit (256 - (n + 1)) = q at g1 ⊢
          cases p <;> cases q <;> simp at g1 ⊢
        obtain ⟨h5, h6⟩ := hab
        rw [h5] at g3
        rw [h6] at g4
        have r1 := (ensureRightMost_iff (sha := sha) _).1 g3
        have r2 := (ensureLeftMost_iff (sha := sha) _).1 g4
        cases h' : e.1.bit (256 - (n + 1)) with
        | false =>
          exact of_rightMost _ a n (by omega) (hl.half _ false (by intro e he; simpa using he)) (hc.mono (smtInputs_half _ n l _))
            (List.mem_filter.2 ⟨ha, beq_iff_eq.2 h5⟩) r1 e (List.mem_filter.2 ⟨he, beq_iff_eq.2 h'⟩) h3
        | true =>
          exact of_leftMost _ b n (by omega) (hl.half _ true (by intro e he; simpa using he)) (hc.mono (smtInputs_half _ n l _))
            (List.mem_filter.2 ⟨hb, beq_iff_eq.2 h6⟩) r2 e (List.mem_filter.2 ⟨he, beq_iff_eq.2 h'⟩) h4

end Verif.Jmt
