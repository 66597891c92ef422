import Verif.Jmt.Ics23
import Verif.Proofs.Range
/-! ICS23 proofs: evaluation of existence proofs, and the order of paths. -/

set_option autoImplicit false

namespace Verif.Jmt
open Verif.Ics23 Verif.Spec Tree

/-- A host whose SHA-256 is `sha`. -/
structure ShaHost (sha : List UInt8 → Key) (host : Host) : Prop where
  hash : ∀ b, host.hash sha256 b = .ok (sha b).bytes
  length : ∀ b, host.length noPrefix b = .ok b

variable {sha : List UInt8 → Key} {host : Host}

theorem Key.bytes_ne (k : Key) : k.bytes ≠ [] := by
  intro h
  have := k.len
  rw [h] at this
  cases this

theorem applyInner_ok (hh : ShaHost sha host) (s h : Key) (b : Bool) :
    applyInner host (toInnerOp s b) h.bytes =
      .ok (if b then (shaHasher sha).node s h else (shaHasher sha).node h s).bytes := by
  unfold applyInner toInnerOp
  cases b <;> simp [h.bytes_ne, hh.hash, byteHasher, internalBytes, List.append_assoc]

theorem climbPath_ok (hh : ShaHost sha host) (l : List (Key × Bool)) (h : Key) :
    climbPath host 32 (l.map (fun sb => toInnerOp sb.1 sb.2)) h.bytes =
      .ok (l.foldl (fun hash (sb : Key × Bool) => if sb.2 then (shaHasher sha).node sb.1 hash else (shaHasher sha).node hash sb.1) h).bytes := by
  induction l generalizing h with
  | nil => rfl
  | cons sb l ih =>
    simp only [List.map_cons, climbPath, applyInner_ok hh, Res.ok_bind, List.foldl_cons]
    have hl : ∀ x : Key, ¬ (32 < x.bytes.length ∧ 32 ≤ 32) := by intro x; rw [x.len]; omega
    simp only [hl, not_false_eq_true, decide_true, ensure_true, Res.ok_bind]
    exact ih _

theorem applyLeaf_ok (hh : ShaHost sha host) {key value : Bytes} (hk : key ≠ []) (hv : value ≠ []) :
    applyLeaf host toLeafOp key value = .ok ((shaHasher sha).leaf (sha key) (sha value)).bytes := by
  simp [applyLeaf, prepareLeafData, toLeafOp, hk, hv, hh.hash, hh.length, byteHasher, leafBytes]

theorem allOk_iff {α : Type} {f : α → Res Unit} {l : List α} : allOk f l = .ok () ↔ ∀ a ∈ l, f a = .ok () := by
  induction l with
  | nil => simp [allOk]
  | cons a l ih =>
    simp only [allOk, List.mem_cons, forall_eq_or_imp]
    cases hf : f a with
    | error e => simp
    | ok u => simp [ih]

theorem leaf_not_prefix_inner (x : Bytes) : ¬ leafDomainSeparator <+: internalDomainSeparator ++ x := by
  rw [List.prefix_iff_eq_take]
  intro h
  have e : (internalDomainSeparator ++ x).take leafDomainSeparator.length = internalDomainSeparator.take leafDomainSeparator.length := by
    rw [List.take_append_of_le_length (by decide)]
  rw [e] at h
  exact absurd h (by decide)

theorem ensure_ok_iff {b : Bool} {m : String} : ensure b m = .ok () ↔ b = true := by
  cases b <;> simp

theorem ensureInner_ok (s : Key) (b : Bool) : ensureInner (toInnerOp s b) ics23Spec = .ok () := by
  have hl := s.len
  unfold ensureInner
  rw [ensure_ok_iff, decide_eq_true_eq]
  cases b
  · have e : (toInnerOp s false).pre.length = 16 := rfl
    refine ⟨rfl, ?_, by rw [e]; decide, by rw [e]; decide, by decide, ?_⟩
    · have := leaf_not_prefix_inner []
      rwa [List.append_nil] at this
    · show s.bytes.length % 32 = 0
      rw [hl]
  · have e : (toInnerOp s true).pre.length = 48 := by simp [toInnerOp, internalDomainSeparator, hl]
    refine ⟨rfl, leaf_not_prefix_inner s.bytes, ?_, ?_, by decide, rfl⟩
    · rw [e]; decide
    · rw [e]; decide

theorem Res.bind_ok_iff {α β : Type} {x : Res α} {f : α → Res β} {b : β} : (x >>= f) = .ok b ↔ ∃ a, x = .ok a ∧ f a = .ok b := by
  cases x <;> simp

theorem zip_bits_length {α : Type} (l : List α) (k : Key) (h : l.length ≤ 256) :
    (l.zip (k.bits.reverse.drop (256 - l.length))).length = l.length := by
  simp [List.length_zip]; omega

/-- What the verification of a converted proof amounts to. -/
theorem verifyExistence_iff (hh : ShaHost sha host) {key : Bytes} {value : Value} {p : SparseMerkleProof Key} {q : ExistenceProof}
    (hq : toExistenceProof sha key value p = .ok q) (root : Key) :
    verifyExistence host q ics23Spec root.bytes key value = .ok () ↔
      key ≠ [] ∧ value ≠ [] ∧ p.siblings.length ≤ 64 ∧
      SparseMerkleProof.foldUp (shaHasher sha) p.siblings (sha key) ((shaHasher sha).leaf (sha key) (sha value)) = root := by
  unfold toExistenceProof at hq
  split at hq
  · rename_i h256
    cases hq
    unfold verifyExistence checkExistenceSpec
    have hinner : allOk (fun op => ensureInner op ics23Spec)
        ((p.siblings.zip ((sha key).bits.reverse.drop (256 - p.siblings.length))).map (fun sb => toInnerOp sb.1 sb.2)) = .ok () := by
      rw [allOk_iff]
      intro op hop
      obtain ⟨sb, _, rfl⟩ := List.mem_map.1 hop
      exact ensureInner_ok _ _
    have hleaf : ensureLeaf toLeafOp ics23Spec.leafSpec = .ok () := by
      simp [ensureLeaf, ics23Spec]
    simp only [hinner, hleaf, Res.ok_bind, List.length_map, zip_bits_length _ _ h256]
    by_cases hd : p.siblings.length ≤ 64
    · have h1 : ensure (decide (ics23Spec.maxDepth = 0 ∨ p.siblings.length ≤ ics23Spec.maxDepth)) "Too many inner ops" = .ok () := by
        rw [ensure_ok_iff]; simp [ics23Spec, hd]
      have h0 : ensure (decide (ics23Spec.minDepth = 0 ∨ ics23Spec.minDepth ≤ p.siblings.length)) "Too few inner ops" = .ok () := by
        rw [ensure_ok_iff]; simp [ics23Spec]
      simp only [h1, h0, Res.ok_bind, decide_true, ensure_true, calculateRoot]
      by_cases hk : key = []
      · simp [hk]
      · by_cases hv : value = []
        · simp [hk, hv]
        · simp only [hk, hv, ne_eq, not_false_eq_true, decide_true, ensure_true, Res.ok_bind, applyLeaf_ok hh hk hv]
          have := climbPath_ok hh (p.siblings.zip ((sha key).bits.reverse.drop (256 - p.siblings.length)))
            ((shaHasher sha).leaf (sha key) (sha value))
          have hcs : ics23Spec.innerSpec.childSize = 32 := rfl
          rw [hcs, this]
          simp only [Res.ok_bind, ensure_ok_iff, decide_eq_true_eq, hd, true_and]
          constructor
          · intro h; exact Key.ext_bytes h
          · intro h; rw [← h]; rfl
    · have h1 : ensure (decide (ics23Spec.maxDepth = 0 ∨ p.siblings.length ≤ ics23Spec.maxDepth)) "Too many inner ops" =
          .error (.err "Too many inner ops") := by
        have : decide (ics23Spec.maxDepth = 0 ∨ p.siblings.length ≤ ics23Spec.maxDepth) = false := by
          rw [decide_eq_false_iff_not]
          show ¬ (64 = 0 ∨ p.siblings.length ≤ 64)
          omega
        rw [this]; rfl
      have h0 : ensure (decide (ics23Spec.minDepth = 0 ∨ ics23Spec.minDepth ≤ p.siblings.length)) "Too few inner ops" = .ok () := by
        rw [ensure_ok_iff]; simp [ics23Spec]
      simp only [h1, h0, Res.ok_bind, Res.error_bind]
      simp [hd]
  · cases hq

theorem calculateRoot_ok (hh : ShaHost sha host) {key : Bytes} {value : Value} (hk : key ≠ []) (hv : value ≠ [])
    {p : SparseMerkleProof Key} {q : ExistenceProof} (hq : toExistenceProof sha key value p = .ok q) :
    calculateRoot host ics23Spec q =
      .ok (SparseMerkleProof.foldUp (shaHasher sha) p.siblings (sha key) ((shaHasher sha).leaf (sha key) (sha value))).bytes := by
  unfold toExistenceProof at hq
  split at hq
  · cases hq
    have hcs : ics23Spec.innerSpec.childSize = 32 := rfl
    simp only [calculateRoot, hk, hv, ne_eq, not_false_eq_true, decide_true, ensure_true, Res.ok_bind, applyLeaf_ok hh hk hv]
    rw [hcs, climbPath_ok hh]
    rfl
  · cases hq

/-! ### how long a path is -/

theorem smtPath_depth_iff {D : Type} (H : Hasher D) (k : Key) (n : Nat) (hn : n ≤ 256) {l : List (Key × D)} (hl : Agree n l) {h : D}
    (hm : (k, h) ∈ l) (d : Nat) (hd : 256 - n ≤ d) (hd' : d ≤ 256) :
    (smtPath H k n l).1.length + (256 - n) ≤ d ↔ ∀ e ∈ l, e.1 ≠ k → ∃ j, j < d ∧ e.1.bit j ≠ k.bit j := by
  induction n generalizing l with
  | zero =>
    have hl1 := hl.zero
    match l, hl1, hm with
    | [a], _, hm =>
      simp only [List.mem_singleton] at hm
      subst hm
      simp [hd]
  | succ n ih =>
    rcases list_cases l with rfl | ⟨a, rfl⟩ | h2
    · simp at hm
    · simp only [List.mem_singleton] at hm
      subst hm
      simpa using hd
    · rw [smtPath_two H k n l h2]
      simp only [List.length_cons]
      by_cases hlt : 256 - n ≤ d
      · have := ih (by omega) (hl.half (fun e => e.1.bit (256 - (n + 1)) == k.bit (256 - (n + 1))) (k.bit (256 - (n + 1)))
          (by intro e he; simpa using he)) (List.mem_filter.2 ⟨hm, by simp⟩) hlt
        constructor
        · intro hle e he hek
          by_cases hb : e.1.bit (256 - (n + 1)) = k.bit (256 - (n + 1))
          · exact this.1 (by omega) e (List.mem_filter.2 ⟨he, beq_iff_eq.2 hb⟩) hek
          · exact ⟨256 - (n + 1), by omega, hb⟩
        · intro hall
          have := this.2 (fun e he hek => hall e (List.mem_filter.1 he).1 hek)
          omega
      · have hdn : d = 256 - (n + 1) := by omega
        constructor
        · intro hle; omega
        · intro hall
          exfalso
          obtain ⟨e, he, hek⟩ : ∃ e ∈ l, e.1 ≠ k := by
            by_contra hc
            push_neg at hc
            match l, h2 with
            | a :: b :: t, _ =>
              have h1 := hc a (by simp)
              have h2 := hc b (by simp)
              have := hl.nodup
              simp [h1, h2] at this
          obtain ⟨j, hj, hne⟩ := hall e he hek
          exact hne (hl.agree e he _ hm j (by omega))

/-! ### the order of paths -/

theorem padding0 : getPadding ics23Spec.innerSpec 0 = .ok ⟨16, 16, 32⟩ := rfl
theorem padding1 : getPadding ics23Spec.innerSpec 1 = .ok ⟨48, 48, 0⟩ := rfl

theorem hasPadding0 (s : Key) (b : Bool) : hasPadding (toInnerOp s b) ⟨16, 16, 32⟩ = !b := by
  have := s.len
  cases b <;> simp [hasPadding, toInnerOp, internalDomainSeparator, this]

theorem hasPadding1 (s : Key) (b : Bool) : hasPadding (toInnerOp s b) ⟨48, 48, 0⟩ = b := by
  have := s.len
  cases b <;> simp [hasPadding, toInnerOp, internalDomainSeparator, this]

theorem order_ok (s : Key) (b : Bool) : orderFromPadding ics23Spec.innerSpec (toInnerOp s b) = .ok (if b then 1 else 0) := by
  have h0 := hasPadding0 s b
  have h1 := hasPadding1 s b
  unfold orderFromPadding
  have hl : ics23Spec.innerSpec.childOrder.length = 2 := rfl
  rw [hl]
  simp only [orderFromPadding.go, padding0, Res.ok_bind, h0, Nat.zero_add]
  rw [padding1]
  simp only [Res.ok_bind, h1]
  cases b <;> simp

theorem leftMostStep_iff (s : Key) (b : Bool) :
    leftMostStep ics23Spec.innerSpec ⟨16, 16, 32⟩ (toInnerOp s b) = .ok () ↔ b = false ∨ s = placeholderBytes := by
  unfold leftMostStep
  rw [hasPadding0]
  cases b with
  | false => simp
  | true =>
    simp only [Bool.not_true, Bool.false_eq_true, if_false, leftBranchesAreEmpty, order_ok, Res.ok_bind, if_true]
    have hcs : ics23Spec.innerSpec.childSize = 32 := rfl
    have hlen : (toInnerOp s true).pre.length = 48 := by simp [toInnerOp, internalDomainSeparator, s.len]
    have hd : ((toInnerOp s true).pre.drop 16).take 32 = s.bytes := by
      have : (toInnerOp s true).pre.drop 16 = s.bytes := by
        simp only [toInnerOp, if_true]
        exact List.drop_left' rfl
      rw [this, List.take_of_length_le (Nat.le_of_eq s.len)]
    have he : ics23Spec.innerSpec.emptyChild = placeholderBytes.bytes := rfl
    simp only [hcs, hlen, Nat.one_ne_zero, if_false, Nat.one_mul, show ¬ (48 < 32) by omega, childrenEmpty, Res.pure_eq, Res.ok_bind,
      ensure_ok_iff, List.range_one, List.all_cons, List.all_nil, Bool.and_true, Nat.zero_mul, Nat.add_zero, decide_eq_true_eq, he,
      show 48 - 32 = 16 by omega, hd, false_or, reduceCtorEq]
    exact ⟨fun h => Key.ext_bytes h, fun h => by rw [h]⟩

theorem rightMostStep_iff (s : Key) (b : Bool) :
    rightMostStep ics23Spec.innerSpec ⟨48, 48, 0⟩ (toInnerOp s b) = .ok () ↔ b = true ∨ s = placeholderBytes := by
  unfold rightMostStep
  rw [hasPadding1]
  cases b with
  | true => simp
  | false =>
    simp only [Bool.false_eq_true, if_false, rightBranchesAreEmpty, order_ok, Res.ok_bind]
    have hcs : ics23Spec.innerSpec.childSize = 32 := rfl
    have hco : ics23Spec.innerSpec.childOrder.length = 2 := rfl
    have hsuf : (toInnerOp s false).suf = s.bytes := rfl
    have hd : s.bytes.take 32 = s.bytes := List.take_of_length_le (Nat.le_of_eq s.len)
    have he : ics23Spec.innerSpec.emptyChild = placeholderBytes.bytes := rfl
    simp only [hcs, hco, hsuf, s.len, childrenEmpty, Nat.one_mul, Nat.sub_zero, Nat.one_ne_zero, ne_eq, not_true_eq_false, if_false,
      show 2 - 1 = 1 by omega, Res.pure_eq, Res.ok_bind, ensure_ok_iff, List.range_one, List.all_cons, List.all_nil, Bool.and_true,
      Nat.zero_mul, Nat.add_zero, List.drop_zero, hd, he, decide_eq_true_eq, false_or, reduceCtorEq]
    exact ⟨fun h => Key.ext_bytes h, fun h => by rw [h]⟩

/-- Every step of the path turns right, or has an empty tree on the right. -/
def RightMost {D : Type} (H : Hasher D) (l : List (D × Bool)) : Prop := ∀ sb ∈ l, sb.2 = true ∨ sb.1 = H.placeholder
/-- Every step of the path turns left, or has an empty tree on the left. -/
def LeftMost {D : Type} (H : Hasher D) (l : List (D × Bool)) : Prop := ∀ sb ∈ l, sb.2 = false ∨ sb.1 = H.placeholder

/-- The steps of the path of a key, topmost first. -/
def steps {D : Type} (H : Hasher D) (k : Key) (n : Nat) (l : List (Key × D)) : List (D × Bool) :=
  (smtPath H k n l).1.zip (k.bits.drop (256 - n))

theorem steps_two {D : Type} (H : Hasher D) (k : Key) (n : Nat) (hn : n < 256) (l : List (Key × D)) (h2 : 2 ≤ l.length) :
    steps H k (n + 1) l =
      (smt H n (l.filter (fun e => e.1.bit (256 - (n + 1)) != k.bit (256 - (n + 1)))), k.bit (256 - (n + 1))) ::
        steps H k n (l.filter (fun e => e.1.bit (256 - (n + 1)) == k.bit (256 - (n + 1)))) := by
  unfold steps
  rw [smtPath_two H k n l h2, drop_bits k n hn]
  rfl

theorem lt_of_bit {n : Nat} (hn : n < 256) {D : Type} {l : List (Key × D)} (hl : Agree (n + 1) l) {a b : Key × D} (ha : a ∈ l) (hb : b ∈ l)
    (h0 : a.1.bit (256 - (n + 1)) = false) (h1 : b.1.bit (256 - (n + 1)) = true) : a.1 < b.1 := by
  refine lt_of_leaves_left (i := 256 - (n + 1)) (by omega) ?_ h0 h1
  simp only [agreeTo, List.all_eq_true, List.mem_range, beq_iff_eq]
  intro j hj
  exact hl.agree a ha b hb j hj

theorem rightMost_steps {D : Type} (H : Hasher D) (k : Key) (n : Nat) (hn : n ≤ 256) {l : List (Key × D)} (hl : Agree n l) {h : D}
    (hm : (k, h) ∈ l) (hmax : ∀ e ∈ l, ¬ k < e.1) : RightMost H (steps H k n l) := by
  induction n generalizing l with
  | zero =>
    match l, hl.zero, hm with
    | [a], _, _ => intro sb hsb; simp [steps] at hsb
  | succ n ih =>
    rcases list_cases l with rfl | ⟨a, rfl⟩ | h2
    · simp at hm
    · intro sb hsb; simp [steps] at hsb
    · rw [steps_two H k n (by omega) l h2]
      intro sb hsb
      rw [List.mem_cons] at hsb
      rcases hsb with rfl | hsb
      · cases hb : k.bit (256 - (n + 1)) with
        | true => left; rfl
        | false =>
          right
          have : l.filter (fun e => e.1.bit (256 - (n + 1)) != false) = [] := by
            rw [List.filter_eq_nil_iff]
            intro e he hbe
            have hbe : e.1.bit (256 - (n + 1)) = true := by simpa using hbe
            exact hmax e he (lt_of_bit (by omega) hl hm he hb hbe)
          simp only [this]
          cases n <;> rfl
      · exact ih (by omega) (hl.half _ (k.bit (256 - (n + 1))) (by intro e he; simpa using he)) (List.mem_filter.2 ⟨hm, by simp⟩)
          (fun e he => hmax e (List.mem_filter.1 he).1) sb hsb

theorem leftMost_steps {D : Type} (H : Hasher D) (k : Key) (n : Nat) (hn : n ≤ 256) {l : List (Key × D)} (hl : Agree n l) {h : D}
    (hm : (k, h) ∈ l) (hmin : ∀ e ∈ l, ¬ e.1 < k) : LeftMost H (steps H k n l) := by
  induction n generalizing l with
  | zero =>
    match l, hl.zero, hm with
    | [a], _, _ => intro sb hsb; simp [steps] at hsb
  | succ n ih =>
    rcases list_cases l with rfl | ⟨a, rfl⟩ | h2
    · simp at hm
    · intro sb hsb; simp [steps] at hsb
    · rw [steps_two H k n (by omega) l h2]
      intro sb hsb
      rw [List.mem_cons] at hsb
      rcases hsb with rfl | hsb
      · cases hb : k.bit (256 - (n + 1)) with
        | false => left; rfl
        | true =>
          right
          have : l.filter (fun e => e.1.bit (256 - (n + 1)) != true) = [] := by
            rw [List.filter_eq_nil_iff]
            intro e he hbe
            have hbe : e.1.bit (256 - (n + 1)) = false := by simpa using hbe
            exact hmin e he (lt_of_bit (by omega) hl he hm hbe hb)
          simp only [this]
          cases n <;> rfl
      · exact ih (by omega) (hl.half _ (k.bit (256 - (n + 1))) (by intro e he; simpa using he)) (List.mem_filter.2 ⟨hm, by simp⟩)
          (fun e he => hmin e (List.mem_filter.1 he).1) sb hsb

/-- The paths of two neighbours part once. -/
theorem neighbour_steps {D : Type} (H : Hasher D) (a b : Key) (n : Nat) (hn : n ≤ 256) {l : List (Key × D)} (hl : Agree n l) {x y : D}
    (ha : (a, x) ∈ l) (hb : (b, y) ∈ l) (hab : a < b) (hbetween : ∀ e ∈ l, ¬ (a < e.1 ∧ e.1 < b)) :
    ∃ c s t l1 l2, steps H a n l = c ++ (s, false) :: l1 ∧ steps H b n l = c ++ (t, true) :: l2 ∧ RightMost H l1 ∧ LeftMost H l2 := by
  have hne : a ≠ b := by rintro rfl; exact Key.lt_irrefl _ hab
  induction n generalizing l with
  | zero =>
    match l, hl.zero with
    | [], _ => simp at ha
    | [e], _ =>
      simp only [List.mem_singleton] at ha hb
      exact absurd (congrArg Prod.fst (ha.trans hb.symm)) hne
  | succ n ih =>
    rcases list_cases l with rfl | ⟨e, rfl⟩ | h2
    · simp at ha
    · simp only [List.mem_singleton] at ha hb
      exact absurd (congrArg Prod.fst (ha.trans hb.symm)) hne
    · rw [steps_two H a n (by omega) l h2, steps_two H b n (by omega) l h2]
      by_cases hbit : a.bit (256 - (n + 1)) = b.bit (256 - (n + 1))
      · rw [hbit]
        obtain ⟨c, s, t, l1, l2, h1, h3, h4, h5⟩ := ih (by omega)
          (hl.half (fun e => e.1.bit (256 - (n + 1)) == b.bit (256 - (n + 1))) (b.bit (256 - (n + 1))) (by intro e he; simpa using he))
          (List.mem_filter.2 ⟨ha, beq_iff_eq.2 hbit⟩) (List.mem_filter.2 ⟨hb, by simp⟩)
          (fun e he => hbetween e (List.mem_filter.1 he).1)
        rw [h1, h3]
        exact ⟨(smt H n (l.filter (fun e => e.1.bit (256 - (n + 1)) != b.bit (256 - (n + 1)))), b.bit (256 - (n + 1))) :: c, s, t, l1, l2,
          rfl, rfl, h4, h5⟩
      · have ha0 : a.bit (256 - (n + 1)) = false := by
          cases h : a.bit (256 - (n + 1)) with
          | false => rfl
          | true =>
            have hb0 : b.bit (256 - (n + 1)) = false := by
              cases h' : b.bit (256 - (n + 1)) with
              | false => rfl
              | true => exact absurd (h.trans h'.symm) hbit
            exact absurd hab (List.lt_asymm (show b.bytes < a.bytes from lt_of_bit (by omega) hl hb ha hb0 h))
        have hb1 : b.bit (256 - (n + 1)) = true := by
          cases h' : b.bit (256 - (n + 1)) with
          | true => rfl
          | false => exact absurd (ha0.trans h'.symm) hbit
        rw [ha0, hb1]
        refine ⟨[], _, _, _, _, rfl, rfl, ?_, ?_⟩
        · refine rightMost_steps H a n (by omega) (hl.half _ false (by intro e he; simpa using he)) (List.mem_filter.2 ⟨ha, beq_iff_eq.2 ha0⟩) ?_
          intro e he hlt
          rw [List.mem_filter] at he
          exact hbetween e he.1 ⟨hlt, lt_of_bit (by omega) hl he.1 hb (by simpa using he.2) hb1⟩
        · refine leftMost_steps H b n (by omega) (hl.half _ true (by intro e he; simpa using he)) (List.mem_filter.2 ⟨hb, beq_iff_eq.2 hb1⟩) ?_
          intro e he hlt
          rw [List.mem_filter] at he
          exact hbetween e he.1 ⟨lt_of_bit (by omega) hl ha he.1 ha0 (by simpa using he.2), hlt⟩

/-! ### the order checks on converted paths -/

/-- The operations of a path, topmost step first. -/
def opsOf (l : List (Key × Bool)) : List InnerOp := l.map (fun sb => toInnerOp sb.1 sb.2)

theorem ensureRightMost_iff (l : List (Key × Bool)) :
    ensureRightMost ics23Spec.innerSpec (opsOf l).reverse = .ok () ↔ RightMost (shaHasher sha) l := by
  have hc : ics23Spec.innerSpec.childOrder.length - 1 = 1 := rfl
  unfold ensureRightMost
  rw [hc, padding1, Res.ok_bind, allOk_iff]
  simp only [List.mem_reverse, opsOf, List.mem_map, forall_exists_index, and_imp, forall_apply_eq_imp_iff₂, rightMostStep_iff]
  rfl

theorem ensureLeftMost_iff (l : List (Key × Bool)) :
    ensureLeftMost ics23Spec.innerSpec (opsOf l).reverse = .ok () ↔ LeftMost (shaHasher sha) l := by
  unfold ensureLeftMost
  rw [padding0, Res.ok_bind, allOk_iff]
  simp only [List.mem_reverse, opsOf, List.mem_map, forall_exists_index, and_imp, forall_apply_eq_imp_iff₂, leftMostStep_iff]
  rfl

theorem toInnerOp_inj {s s' : Key} {b b' : Bool} (h1 : (toInnerOp s b).pre = (toInnerOp s' b').pre)
    (h2 : (toInnerOp s b).suf = (toInnerOp s' b').suf) : s = s' ∧ b = b' := by
  have hs := s.len
  have hs' := s'.len
  cases b <;> cases b'
  · exact ⟨Key.ext_bytes h2, rfl⟩
  · have := congrArg List.length h2
    simp [toInnerOp, hs] at this
  · have := congrArg List.length h2
    simp [toInnerOp, hs'] at this
  · exact ⟨Key.ext_bytes (List.append_cancel_left h1), rfl⟩

theorem leftNeighbor_ok (c l1 l2 : List (Key × Bool)) (s t : Key) (h1 : RightMost (shaHasher sha) l1) (h2 : LeftMost (shaHasher sha) l2) :
    ensureLeftNeighbor ics23Spec.innerSpec (opsOf (c ++ (s, false) :: l1)).reverse (opsOf (c ++ (t, true) :: l2)).reverse = .ok () := by
  unfold ensureLeftNeighbor
  rw [List.reverse_reverse, List.reverse_reverse]
  induction c with
  | nil =>
    simp only [List.nil_append, opsOf, List.map_cons, leftNeighborLoop]
    rw [if_neg]
    · simp only [isLeftStep, order_ok, Res.ok_bind, Res.pure_eq]
      simp only [Bool.false_eq_true, if_false, if_true, Nat.zero_add, decide_true, ensure_true, Res.ok_bind]
      rw [Res.bind_ok_iff]
      exact ⟨(), (ensureRightMost_iff (sha := sha) l1).2 h1, (ensureLeftMost_iff (sha := sha) l2).2 h2⟩
    · rintro ⟨h3, h4⟩
      exact Bool.noConfusion (toInnerOp_inj h3 h4).2
  | cons sb c ih =>
    simp only [List.cons_append, opsOf, List.map_cons, leftNeighborLoop]
    simp only [and_self, if_true]
    exact ih

/-- The path of a converted proof. -/
theorem toExistenceProof_path {key : Bytes} {value : Value} {p : SparseMerkleProof Key} (h : p.siblings.length ≤ 256) :
    toExistenceProof sha key value p = .ok ⟨key, value, some toLeafOp, (opsOf (p.siblings.reverse.zip (sha key).bits)).reverse⟩ := by
  unfold toExistenceProof
  rw [if_pos h]
  congr 2
  unfold opsOf
  rw [← List.map_reverse]
  congr 1
  have e1 : (sha key).bits.reverse.drop (256 - p.siblings.length) = ((sha key).bits.take p.siblings.length).reverse := by
    rw [List.drop_reverse]
    congr 2
    simp; omega
  have e2 : p.siblings.reverse.zip (sha key).bits = p.siblings.reverse.zip ((sha key).bits.take p.siblings.length) := by
    rw [List.zip_eq_zip_take_min]
    simp only [List.length_reverse, Key.bits_length, Nat.min_eq_left h]
    rw [List.take_of_length_le (by simp)]
  rw [e1, e2, zip_reverse' _ _ (by simp [h]), List.reverse_reverse]

end Verif.Jmt
