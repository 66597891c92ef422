import Verif.Proofs.TreeHash
import Verif.Jmt.Proof
/-! Facts about the specified sparse Merkle tree: permutations, paths, binding. -/

namespace Verif.Jmt
variable {D : Type}
open Verif.Spec

/-- The keys of `l` agree with each other on the first `256 - n` bits and are distinct. -/
structure Agree (n : Nat) (l : List (Key × D)) : Prop where
  nodup : (l.map Prod.fst).Nodup
  agree : ∀ e ∈ l, ∀ e' ∈ l, ∀ j, j < 256 - n → e.1.bit j = e'.1.bit j

theorem Key.ext_bit {a b : Key} (h : ∀ j, j < 256 → a.bit j = b.bit j) : a = b := by
  apply Key.bits_inj
  unfold Key.bits
  apply List.map_congr_left
  intro j hj
  exact h j (List.mem_range.1 hj)

theorem Agree.zero {l : List (Key × D)} (h : Agree 0 l) : l.length ≤ 1 := by
  match l, h with
  | [], _ => simp
  | [_], _ => simp
  | a :: b :: t, h =>
    have hk : a.1 = b.1 := Key.ext_bit (fun j hj => h.agree a (by simp) b (by simp) j (by omega))
    have := h.nodup
    simp [hk] at this

theorem Agree.filter {n : Nat} {l : List (Key × D)} (h : Agree n l) (P : Key × D → Bool) : Agree n (l.filter P) :=
  ⟨(List.filter_sublist.map _).nodup h.nodup, fun e he e' he' => h.agree e (List.mem_filter.1 he).1 e' (List.mem_filter.1 he').1⟩

theorem Agree.half {n : Nat} {l : List (Key × D)} (h : Agree (n + 1) l) (P : Key × D → Bool) (b : Bool)
    (hP : ∀ e, P e = true → e.1.bit (256 - (n + 1)) = b) : Agree n (l.filter P) := by
  refine ⟨(h.filter P).nodup, ?_⟩
  intro e he e' he' j hj
  by_cases hj' : j < 256 - (n + 1)
  · exact (h.filter P).agree e he e' he' j hj'
  · have : j = 256 - (n + 1) := by omega
    rw [this, hP e (List.mem_filter.1 he).2, hP e' (List.mem_filter.1 he').2]

theorem agree_top {l : List (Key × D)} (h : (l.map Prod.fst).Nodup) : Agree 256 l :=
  ⟨h, fun _ _ _ _ j hj => by omega⟩

theorem Agree.left {n : Nat} {l : List (Key × D)} (h : Agree (n + 1) l) : Agree n (l.filter (fun e => !e.1.bit (256 - (n + 1)))) :=
  h.half _ false (by intro e he; simpa using he)
theorem Agree.right {n : Nat} {l : List (Key × D)} (h : Agree (n + 1) l) : Agree n (l.filter (fun e => e.1.bit (256 - (n + 1)))) :=
  h.half _ true (by intro e he; simpa using he)

theorem smt_perm (H : Hasher D) (n : Nat) {l l' : List (Key × D)} (h : l.Perm l') : smt H n l = smt H n l' := by
  induction n generalizing l l' with
  | zero =>
    match l, l', h.length_eq with
    | [], [], _ => rfl
    | [a], [b], _ => rw [List.perm_singleton] at h; rw [h]
    | _ :: _ :: _, _ :: _ :: _, _ => rfl
  | succ n ih =>
    match l, l', h.length_eq, h with
    | [], [], _, _ => rfl
    | [a], [b], _, h => rw [List.perm_singleton] at h; rw [h]
    | a :: b :: t, a' :: b' :: t', _, h =>
      rw [smt_two H n _ (by simp), smt_two H n _ (by simp), ih (h.filter _), ih (h.filter _)]

theorem nodup_of_map {α β : Type} (f : α → β) {l : List α} (h : (l.map f).Nodup) : l.Nodup := by
  rw [List.Nodup, List.pairwise_map] at h
  exact h.imp (by rintro a b hab rfl; exact hab rfl)

theorem lists_perm {H : Hasher D} {f : Key → Option Value} {L L' : List (Key × D)} (h : Lists H f L) (h' : Lists H f L') :
    L.Perm L' := by
  refine (List.perm_ext_iff_of_nodup (nodup_of_map _ h.1) (nodup_of_map _ h'.1)).2 ?_
  rintro ⟨k, d⟩
  rw [h.2, h'.2]

/-! paths -/

theorem smtPath_two (H : Hasher D) (k : Key) (n : Nat) (l : List (Key × D)) (h : 2 ≤ l.length) :
    smtPath H k (n + 1) l =
      (smt H n (l.filter (fun e => e.1.bit (256 - (n + 1)) != k.bit (256 - (n + 1)))) ::
        (smtPath H k n (l.filter (fun e => e.1.bit (256 - (n + 1)) == k.bit (256 - (n + 1))))).1,
       (smtPath H k n (l.filter (fun e => e.1.bit (256 - (n + 1)) == k.bit (256 - (n + 1))))).2) := by
  match l, h with
  | a :: b :: t, _ => rfl

@[simp] theorem smtPath_nil (H : Hasher D) (k : Key) (n : Nat) : smtPath H k n [] = ([], none) := by cases n <;> rfl
@[simp] theorem smtPath_single (H : Hasher D) (k : Key) (n : Nat) (e : Key × D) : smtPath H k n [e] = ([], some e) := by
  cases n <;> rfl

theorem list_cases {α : Type} (l : List α) : l = [] ∨ (∃ a, l = [a]) ∨ 2 ≤ l.length := by
  match l with
  | [] => simp
  | [a] => simp
  | _ :: _ :: _ => simp

theorem smtPath_mem (H : Hasher D) (k : Key) (n : Nat) {l : List (Key × D)} {e : Key × D} (h : (smtPath H k n l).2 = some e) : e ∈ l := by
  induction n generalizing l with
  | zero =>
    rcases list_cases l with rfl | ⟨a, rfl⟩ | h2
    · simp at h
    · simp at h; simp [h]
    · match l, h2 with
      | a :: b :: t, _ => simp [smtPath] at h
  | succ n ih =>
    rcases list_cases l with rfl | ⟨a, rfl⟩ | h2
    · simp at h
    · simp at h; simp [h]
    · rw [smtPath_two H k n l h2] at h
      exact (List.mem_filter.1 (ih h)).1

theorem smtPath_find (H : Hasher D) (k : Key) (n : Nat) {l : List (Key × D)} (hl : Agree n l) {h : D} (hm : (k, h) ∈ l) :
    (smtPath H k n l).2 = some (k, h) := by
  induction n generalizing l with
  | zero =>
    have := hl.zero
    match l, this with
    | [a], _ => simp at hm; simp [hm]
  | succ n ih =>
    rcases list_cases l with rfl | ⟨a, rfl⟩ | h2
    · simp at hm
    · simp at hm; simp [hm]
    · rw [smtPath_two H k n l h2]
      exact ih (hl.half _ (k.bit (256 - (n + 1))) (by intro e he; simpa using he)) (by simp [List.mem_filter, hm])

theorem smtPath_length (H : Hasher D) (k : Key) (n : Nat) (l : List (Key × D)) : (smtPath H k n l).1.length ≤ n := by
  induction n generalizing l with
  | zero =>
    rcases list_cases l with rfl | ⟨a, rfl⟩ | h2
    · simp
    · simp
    · match l, h2 with
      | a :: b :: t, _ => simp [smtPath]
  | succ n ih =>
    rcases list_cases l with rfl | ⟨a, rfl⟩ | h2
    · simp
    · simp
    · rw [smtPath_two H k n l h2]
      simpa using ih _

/-- The found leaf shares the bits of the path. -/
theorem smtPath_prefix (H : Hasher D) (k : Key) (n : Nat) (hn : n ≤ 256) {l : List (Key × D)} {e : Key × D}
    (h : (smtPath H k n l).2 = some e) (hk : ∀ e ∈ l, ∀ j, j < 256 - n → e.1.bit j = k.bit j) :
    ∀ j, j < 256 - n + (smtPath H k n l).1.length → e.1.bit j = k.bit j := by
  induction n generalizing l with
  | zero =>
    have hm := smtPath_mem H k 0 h
    have := smtPath_length H k 0 l
    intro j hj
    exact hk e hm j (by omega)
  | succ n ih =>
    rcases list_cases l with rfl | ⟨a, rfl⟩ | h2
    · simp at h
    · simp at h
      subst h
      intro j hj
      exact hk _ (by simp) j (by simpa using hj)
    · rw [smtPath_two H k n l h2] at h ⊢
      intro j hj
      refine ih (by omega) h ?_ j (by simp only [List.length_cons] at hj; omega)
      intro e' he' j' hj'
      rw [List.mem_filter] at he'
      by_cases hj2 : j' < 256 - (n + 1)
      · exact hk e' he'.1 j' hj2
      · have : j' = 256 - (n + 1) := by omega
        rw [this]; simpa using he'.2

/-- The start hash of the path. -/
def leafHash (H : Hasher D) : Option (Key × D) → D
  | none => H.placeholder
  | some e => H.leaf e.1 e.2

theorem drop_bits (k : Key) (n : Nat) (hn : n < 256) : k.bits.drop (256 - (n + 1)) = k.bit (256 - (n + 1)) :: k.bits.drop (256 - n) := by
  have : 256 - (n + 1) < k.bits.length := by simp; omega
  rw [List.drop_eq_getElem_cons this]
  congr 1
  · simp [Key.bits]
  · congr 1; omega

/-- Climbing the path of a key gives the root. -/
theorem climb_smtPath (H : Hasher D) (k : Key) (n : Nat) (hn : n ≤ 256) {l : List (Key × D)} (hl : Agree n l) :
    climb H (smtPath H k n l).1 (k.bits.drop (256 - n)) (leafHash H (smtPath H k n l).2) = smt H n l := by
  induction n generalizing l with
  | zero =>
    have := hl.zero
    match l, this with
    | [], _ => rfl
    | [a], _ => rfl
  | succ n ih =>
    rcases list_cases l with rfl | ⟨a, rfl⟩ | h2
    · simp [climb, leafHash]
    · obtain ⟨a1, a2⟩ := a; simp [climb, leafHash]
    · rw [smtPath_two H k n l h2, smt_two H n l h2, drop_bits k n (by omega)]
      have := ih (by omega) (hl.half (fun e => e.1.bit (256 - (n + 1)) == k.bit (256 - (n + 1))) (k.bit (256 - (n + 1)))
        (by intro e he; simpa using he))
      simp only [climb, this]
      cases hb : k.bit (256 - (n + 1)) <;> simp

/-! the fold used by `verify` is `climb` -/

theorem climb_foldr (H : Hasher D) (sibs : List D) (bits : List Bool) (h : D) :
    climb H sibs bits h = (sibs.zip bits).foldr (fun (sb : D × Bool) hash => if sb.2 then H.node sb.1 hash else H.node hash sb.1) h := by
  induction sibs generalizing bits with
  | nil => rfl
  | cons s sibs ih =>
    cases bits with
    | nil => rfl
    | cons b bits => simp only [climb, ih, List.zip_cons_cons, List.foldr_cons]

theorem zip_reverse' {α β : Type} (a : List α) (b : List β) (h : a.length = b.length) : (a.zip b).reverse = a.reverse.zip b.reverse := by
  induction a generalizing b with
  | nil => rfl
  | cons x a ih =>
    match b with
    | [] => simp at h
    | y :: b =>
      simp only [List.length_cons, Nat.add_right_cancel_iff] at h
      simp only [List.zip_cons_cons, List.reverse_cons]
      rw [ih b h, List.zip_append (by simp [h])]
      rfl

theorem foldUp_eq_climb (H : Hasher D) (sibs : List D) (k : Key) (h : D) (hs : sibs.length ≤ 256) :
    SparseMerkleProof.foldUp H sibs k h = climb H sibs.reverse k.bits h := by
  rw [climb_foldr, SparseMerkleProof.foldUp]
  have e1 : k.bits.reverse.drop (256 - sibs.length) = (k.bits.take sibs.length).reverse := by
    rw [List.drop_reverse]
    congr 2
    simp; omega
  have e2 : sibs.reverse.zip k.bits = sibs.reverse.zip (k.bits.take sibs.length) := by
    rw [List.zip_eq_zip_take_min]
    simp only [List.length_reverse, Key.bits_length, Nat.min_eq_left hs]
    rw [List.take_of_length_le (by simp)]
  have e3 : (sibs.zip (k.bits.take sibs.length).reverse) = (sibs.reverse.zip (k.bits.take sibs.length)).reverse := by
    rw [zip_reverse' _ _ (by simp [hs]), List.reverse_reverse]
  rw [e1, e3, e2, List.foldl_reverse]

/-! ### Binding -/

@[simp] theorem digest_leaf (H : Hasher D) (k : Key) (v : D) : (HashInput.leaf k v).digest H = H.leaf k v := rfl
@[simp] theorem digest_node (H : Hasher D) (a b : D) : (HashInput.node a b).digest H = H.node a b := rfl
@[simp] theorem climb_nil (H : Hasher D) (bits : List Bool) (h : D) : climb H [] bits h = h := by cases bits <;> rfl


theorem smtInputs_two (H : Hasher D) (n : Nat) (l : List (Key × D)) (h : 2 ≤ l.length) :
    smtInputs H (n + 1) l = .node (smt H n (l.filter (fun e => !e.1.bit (256 - (n + 1))))) (smt H n (l.filter (fun e => e.1.bit (256 - (n + 1))))) ::
      (smtInputs H n (l.filter (fun e => !e.1.bit (256 - (n + 1)))) ++ smtInputs H n (l.filter (fun e => e.1.bit (256 - (n + 1))))) := by
  match l, h with
  | a :: b :: t, _ => rfl
@[simp] theorem smtInputs_single (H : Hasher D) (n : Nat) (k : Key) (v : D) : smtInputs H n [(k, v)] = [.leaf k v] := by cases n <;> rfl
@[simp] theorem smtInputs_nil (H : Hasher D) (n : Nat) : smtInputs H n [] = [] := by cases n <;> rfl

theorem _root_.Verif.Spec.Clash.mono {H : Hasher D} {xs ys xs' ys' : List (HashInput D)} (h : Clash H xs ys) (h1 : ∀ x ∈ xs, x ∈ xs') (h2 : ∀ y ∈ ys, y ∈ ys') :
    Clash H xs' ys' := by
  rcases h with ⟨x, hx, y, hy, h⟩ | ⟨x, hx, h⟩
  · exact .inl ⟨x, h1 x hx, y, h2 y hy, h⟩
  · refine .inr ⟨x, ?_, h⟩
    rw [List.mem_append] at hx ⊢
    rcases hx with hx | hx
    · exact .inl (h1 x hx)
    · exact .inr (h2 x hx)

theorem _root_.Verif.Spec.Clash.symm {H : Hasher D} {xs ys : List (HashInput D)} (h : Clash H xs ys) : Clash H ys xs := by
  rcases h with ⟨x, hx, y, hy, h, h'⟩ | ⟨x, hx, h⟩
  · exact .inl ⟨y, hy, x, hx, h.symm, h'.symm⟩
  · refine .inr ⟨x, ?_, h⟩
    rw [List.mem_append] at hx ⊢
    exact hx.symm

/-- Following a path that ends at the root of `l`: the leaf at its bottom is the entry of the specification. -/
theorem climb_sound (H : Hasher D) (k : Key) (n : Nat) (hn : n ≤ 256) {l : List (Key × D)} (hl : Agree n l) (sibs : List D)
    (hs : sibs.length ≤ n) (x : Option (Key × D))
    (h : climb H sibs (k.bits.drop (256 - n)) (leafHash H x) = smt H n l) :
    ((∀ e, x = some e → e ∈ l) ∧ (∀ d, (k, d) ∈ l → x = some (k, d))) ∨
    Clash H (climbInputs H sibs (k.bits.drop (256 - n)) (leafHash H x) ++ (x.map (fun e => HashInput.leaf e.1 e.2)).toList) (smtInputs H n l) := by
  classical
  induction sibs generalizing n l with
  | nil =>
    simp only [climb] at h
    rcases list_cases l with rfl | ⟨⟨k', v'⟩, rfl⟩ | h2
    · cases x with
      | none => left; simp
      | some e =>
        right; right
        refine ⟨.leaf e.1 e.2, by simp, ?_⟩
        simpa [HashInput.digest, leafHash] using h
    · cases x with
      | none =>
        right; right
        refine ⟨.leaf k' v', by simp, ?_⟩
        simpa [HashInput.digest, leafHash] using h.symm
      | some e =>
        obtain ⟨a, b⟩ := e
        by_cases heq : (a, b) = (k', v')
        · left
          cases heq
          refine ⟨by simp, ?_⟩
          intro d hd; simp at hd; simp [hd]
        · right; left
          refine ⟨.leaf a b, by simp, .leaf k' v', by simp, by simpa using heq, ?_⟩
          simpa [HashInput.digest, leafHash] using h
    · match n with
      | 0 => have := hl.zero; omega
      | n + 1 =>
        rw [smt_two H n l h2] at h
        cases x with
        | none =>
          right; right
          refine ⟨.node _ _, List.mem_append_right _ (by rw [smtInputs_two H n l h2]; exact List.mem_cons_self), ?_⟩
          exact h.symm
        | some e =>
          right; left
          refine ⟨.leaf e.1 e.2, by simp, .node _ _, by rw [smtInputs_two H n l h2]; exact List.mem_cons_self, by simp, ?_⟩
          exact h
  | cons s sibs ih =>
    match n with
    | 0 => simp at hs
    | n + 1 =>
      rw [drop_bits k n (by omega)] at h ⊢
      simp only [climb] at h
      generalize hd : climb H sibs (k.bits.drop (256 - n)) (leafHash H x) = d at h
      have htop : ∃ a b, (if k.bit (256 - (n + 1)) = true then H.node s d else H.node d s) = H.node a b ∧
          (HashInput.node a b) ∈ climbInputs H (s :: sibs) (k.bit (256 - (n + 1)) :: k.bits.drop (256 - n)) (leafHash H x) ∧
          (if k.bit (256 - (n + 1)) = true then a = s ∧ b = d else a = d ∧ b = s) := by
        cases hb : k.bit (256 - (n + 1)) with
        | true => exact ⟨s, d, by simp, by simp [climbInputs, hd], by simp⟩
        | false => exact ⟨d, s, by simp, by simp [climbInputs, hd], by simp⟩
      obtain ⟨a, b, e1, e2, e3⟩ := htop
      rw [e1] at h
      rcases list_cases l with rfl | ⟨⟨k', v'⟩, rfl⟩ | h2
      · right; right
        refine ⟨.node a b, List.mem_append_left _ (List.mem_append_left _ e2), ?_⟩
        simpa [HashInput.digest] using h
      · right; left
        refine ⟨.node a b, List.mem_append_left _ e2, .leaf k' v', by simp, by simp, ?_⟩
        simpa [HashInput.digest] using h
      · rw [smt_two H n l h2] at h
        by_cases heq : HashInput.node a b = HashInput.node (smt H n (l.filter (fun e => !e.1.bit (256 - (n + 1))))) (smt H n (l.filter (fun e => e.1.bit (256 - (n + 1)))))
        · simp only [HashInput.node.injEq] at heq
          have hrec : climb H sibs (k.bits.drop (256 - n)) (leafHash H x) =
              smt H n (l.filter (fun e => e.1.bit (256 - (n + 1)) == k.bit (256 - (n + 1)))) := by
            rw [hd]
            cases hb : k.bit (256 - (n + 1)) with
            | true =>
              rw [hb] at e3; simp only [if_true] at e3
              rw [← e3.2, heq.2]; simp
            | false =>
              rw [hb] at e3; simp only [Bool.false_eq_true, if_false] at e3
              rw [← e3.1, heq.1]; simp
          rcases ih n (by omega) (hl.half _ (k.bit (256 - (n + 1))) (by intro e he; simpa using he)) (by simpa using hs) hrec with ⟨r1, r2⟩ | r
          · left
            refine ⟨fun e he => (List.mem_filter.1 (r1 e he)).1, ?_⟩
            intro d' hd'
            exact r2 d' (by simp [List.mem_filter, hd'])
          · right
            refine r.mono ?_ ?_
            · intro y hy
              rw [List.mem_append] at hy ⊢
              rcases hy with hy | hy
              · left; simp [climbInputs, hy]
              · right; exact hy
            · intro y hy
              rw [smtInputs_two H n l h2]
              apply List.mem_cons_of_mem
              rw [List.mem_append]
              cases hb : k.bit (256 - (n + 1)) with
              | true => right; rw [hb] at hy; simpa only [beq_true] using hy
              | false => left; rw [hb] at hy; simpa only [beq_false] using hy
        · right; left
          refine ⟨.node a b, List.mem_append_left _ e2, _, by rw [smtInputs_two H n l h2]; exact List.mem_cons_self, heq, ?_⟩
          exact h

/-- The root hash binds the entries. -/
theorem smt_binding (H : Hasher D) (n : Nat) {l l' : List (Key × D)} (hl : Agree n l) (hl' : Agree n l')
    (h : smt H n l = smt H n l') :
    (∀ e, e ∈ l ↔ e ∈ l') ∨ Clash H (smtInputs H n l) (smtInputs H n l') := by
  classical
  induction n generalizing l l' with
  | zero =>
    have h1 := hl.zero
    have h2 := hl'.zero
    match l, l', h1, h2 with
    | [], [], _, _ => simp
    | [], [(k, v)], _, _ => right; right; exact ⟨.leaf k v, by simp, by simpa using h.symm⟩
    | [(k, v)], [], _, _ => right; right; exact ⟨.leaf k v, by simp, by simpa using h⟩
    | [(k, v)], [(k', v')], _, _ =>
      by_cases heq : (k, v) = (k', v')
      · left; simp [heq]
      · right; left; exact ⟨.leaf k v, by simp, .leaf k' v', by simp, by simpa using heq, by simpa using h⟩
  | succ n ih =>
    rcases list_cases l with rfl | ⟨⟨k, v⟩, rfl⟩ | h2 <;> rcases list_cases l' with rfl | ⟨⟨k', v'⟩, rfl⟩ | h2'
    · simp
    · right; right; exact ⟨.leaf k' v', by simp, by simpa using h.symm⟩
    · right; right
      refine ⟨.node _ _, List.mem_append_right _ (by rw [smtInputs_two H n l' h2']; exact List.mem_cons_self), ?_⟩
      rw [smt_two H n l' h2'] at h
      exact h.symm
    · right; right; exact ⟨.leaf k v, by simp, by simpa using h⟩
    · by_cases heq : (k, v) = (k', v')
      · left; simp [heq]
      · right; left; exact ⟨.leaf k v, by simp, .leaf k' v', by simp, by simpa using heq, by simpa using h⟩
    · right; left
      rw [smt_two H n l' h2'] at h
      exact ⟨.leaf k v, by simp, .node _ _, by rw [smtInputs_two H n l' h2']; exact List.mem_cons_self, by simp, by simpa using h⟩
    · right; right
      rw [smt_two H n l h2] at h
      exact ⟨.node _ _, List.mem_append_left _ (by rw [smtInputs_two H n l h2]; exact List.mem_cons_self), h⟩
    · right; left
      rw [smt_two H n l h2] at h
      exact ⟨.node _ _, by rw [smtInputs_two H n l h2]; exact List.mem_cons_self, .leaf k' v', by simp, by simp, by simpa using h⟩
    · rw [smt_two H n l h2, smt_two H n l' h2'] at h
      by_cases heq : HashInput.node (smt H n (l.filter (fun e => !e.1.bit (256 - (n + 1))))) (smt H n (l.filter (fun e => e.1.bit (256 - (n + 1))))) =
          HashInput.node (smt H n (l'.filter (fun e => !e.1.bit (256 - (n + 1))))) (smt H n (l'.filter (fun e => e.1.bit (256 - (n + 1)))))
      · simp only [HashInput.node.injEq] at heq
        rcases ih hl.left hl'.left heq.1 with a | a
        · rcases ih hl.right hl'.right heq.2 with b | b
          · left
            intro e
            have ha := a e
            have hb := b e
            simp only [List.mem_filter] at ha hb
            cases hbit : e.1.bit (256 - (n + 1)) with
            | true => simpa only [hbit, and_true] using hb
            | false => simpa only [hbit, Bool.not_false, and_true] using ha
          · right
            refine b.mono ?_ ?_
            · intro x hx; rw [smtInputs_two H n l h2]; exact List.mem_cons_of_mem _ (List.mem_append_right _ hx)
            · intro x hx; rw [smtInputs_two H n l' h2']; exact List.mem_cons_of_mem _ (List.mem_append_right _ hx)
        · right
          refine a.mono ?_ ?_
          · intro x hx; rw [smtInputs_two H n l h2]; exact List.mem_cons_of_mem _ (List.mem_append_left _ hx)
          · intro x hx; rw [smtInputs_two H n l' h2']; exact List.mem_cons_of_mem _ (List.mem_append_left _ hx)
      · right; left
        exact ⟨_, by rw [smtInputs_two H n l h2]; exact List.mem_cons_self, _,
          by rw [smtInputs_two H n l' h2']; exact List.mem_cons_self, heq, h⟩

end Verif.Jmt
