import Verif.Jmt.BorshBatch
import Verif.Proofs.Borsh
import Verif.Proofs.OMap
import Verif.Proofs.NibblePath
/-! Serialised batches are read back. -/

set_option autoImplicit false

namespace Verif

namespace OMap
variable {K V : Type} [DecidableEq K] {lt : K → K → Bool}

theorem insertL_last (hlt : StrictTotal lt) (k : K) (v : V) (l : List (K × V)) (h : ∀ e ∈ l, lt e.1 k = true) : insertL lt k v l = l ++ [(k, v)] := by
  induction l with
  | nil => rfl
  | cons e t ih =>
    obtain ⟨a, w⟩ := e
    have ha : lt a k = true := h (a, w) (by simp)
    have h1 : lt k a = false := by
      cases hc : lt k a with
      | false => rfl
      | true => have := hlt.trans _ _ _ ha hc; rw [hlt.irrefl] at this; cases this
    have h2 : a ≠ k := by
      rintro rfl
      rw [hlt.irrefl] at ha; cases ha
    simp [insertL, h1, h2, ih (fun e he => h e (List.mem_cons_of_mem _ he))]

/-- Collecting a sorted list gives the list. -/
theorem extend_sorted (hlt : StrictTotal lt) (l : List (K × V)) (m : OMap K V) (h : Sorted lt (m.entries ++ l)) : m.extend lt l = ⟨m.entries ++ l⟩ := by
  induction l generalizing m with
  | nil => simp [extend]
  | cons e t ih =>
    have h' := h
    unfold Sorted at h'
    rw [List.pairwise_append] at h'
    have e1 : m.insert lt e.1 e.2 = ⟨m.entries ++ [e]⟩ := by
      unfold insert
      rw [insertL_last hlt _ _ _ (fun a ha => h'.2.2 a ha e (by simp))]
    show (m.insert lt e.1 e.2).extend lt t = _
    rw [e1, ih ⟨m.entries ++ [e]⟩ (by simpa using h)]
    simp

theorem empty_extend_sorted (hlt : StrictTotal lt) (l : List (K × V)) (h : Sorted lt l) : (empty : OMap K V).extend lt l = ⟨l⟩ :=
  extend_sorted hlt l .empty h

end OMap

namespace Jmt
open Codec

/-- `dec` reads back what `enc` wrote. -/
def Codec.Back {α : Type} (c : Codec α) (P : α → Prop) : Prop := ∀ a r, P a → c.dec (c.enc a ++ r) = some (a, r)

theorem Codec.Law.toBack {α : Type} {c : Codec α} {P : α → Prop} (h : c.Law P) : c.Back P := h.back

theorem pair_back {α β : Type} {a : Codec α} {b : Codec β} {P : α → Prop} {Q : β → Prop} (ha : a.Back P) (hb : b.Back Q) :
    (pair a b).Back (fun x => P x.1 ∧ Q x.2) := by
  intro x r h
  simp only [pair, List.append_assoc, ha x.1 _ h.1, Option.bind_eq_bind, Option.bind_some, hb x.2 _ h.2]
  rfl

theorem map_back {α β : Type} {c : Codec α} {P : α → Prop} (hc : c.Back P) (f : α → β) (g : β → α) (h1 : ∀ b, f (g b) = b) :
    (Codec.map c f g).Back (fun b => P (g b)) := by
  intro b r h
  simp [Codec.map, hc _ r h, h1]

theorem tryFromSlice_back {α : Type} {c : Codec α} {P : α → Prop} (hc : c.Back P) (a : α) (h : P a) : c.tryFromSlice (c.enc a) = some a := by
  have := hc a [] h
  rw [List.append_nil] at this
  simp [tryFromSlice, this]

theorem btreeMap_back {K V : Type} [DecidableEq K] {lt : K → K → Bool} (hlt : StrictTotal lt) {c : Codec (K × V)} {P : K × V → Prop} (hc : c.Law P) :
    (btreeMap lt c).Back (fun m => m.entries.length < 2 ^ 32 ∧ (∀ e ∈ m.entries, P e) ∧ OMap.Sorted lt m.entries) := by
  intro m r h
  simp only [btreeMap, (vec_law hc).back m.entries r ⟨h.1, h.2.1⟩, Option.map_some, OMap.empty_extend_sorted hlt _ h.2.2]

theorem btreeSet_back {K : Type} [DecidableEq K] {lt : K → K → Bool} (hlt : StrictTotal lt) {c : Codec K} {P : K → Prop} (hc : c.Law P) :
    (btreeSet lt c).Back (fun m => m.entries.length < 2 ^ 32 ∧ (∀ e ∈ m.entries, P e.1) ∧ OMap.Sorted lt m.entries) :=
  btreeMap_back hlt (map_law hc (fun k => (k, ())) Prod.fst (fun _ => rfl) (fun _ => rfl))

theorem pathLt_strict : StrictTotal pathLt := by
  refine ⟨fun a => ?_, fun a b c h1 h2 => ?_, fun a b => ?_⟩
  · simp [pathLt, List.lt_irrefl]
  · simp only [pathLt, decide_eq_true_eq] at *
    rcases h1 with h1 | ⟨h1, h1'⟩ <;> rcases h2 with h2 | ⟨h2, h2'⟩
    · left; omega
    · left; omega
    · left; omega
    · right; exact ⟨by omega, List.lt_trans h1' h2'⟩
  · simp only [pathLt, decide_eq_true_eq]
    rcases Nat.lt_trichotomy a.numNibbles b.numNibbles with h | h | h
    · exact .inl (.inl h)
    · rcases Decidable.em (a.bytes < b.bytes) with g | g
      · exact .inl (.inr ⟨h, g⟩)
      · rcases Decidable.em (b.bytes < a.bytes) with g' | g'
        · exact .inr (.inr (.inr ⟨h.symm, g'⟩))
        · refine .inr (.inl ?_)
          have := List.le_antisymm (α := UInt8) (List.not_lt.1 g') (List.not_lt.1 g)
          cases a; cases b; simp_all
    · exact .inr (.inr (.inl h))

theorem lex_strict {K : Type} {lt : K → K → Bool} (hlt : StrictTotal lt) :
    StrictTotal (fun a b : Nat × K => decide (a.1 < b.1) || decide (a.1 = b.1) && lt a.2 b.2) := by
  refine ⟨fun a => ?_, fun a b c h1 h2 => ?_, fun a b => ?_⟩
  · simp [hlt.irrefl]
  · simp only [Bool.or_eq_true, Bool.and_eq_true, decide_eq_true_eq] at *
    rcases h1 with h1 | ⟨h1, h1'⟩ <;> rcases h2 with h2 | ⟨h2, h2'⟩
    · left; omega
    · left; omega
    · left; omega
    · right; exact ⟨by omega, hlt.trans _ _ _ h1' h2'⟩
  · simp only [Bool.or_eq_true, Bool.and_eq_true, decide_eq_true_eq]
    rcases Nat.lt_trichotomy a.1 b.1 with h | h | h
    · exact .inl (.inl h)
    · rcases hlt.tri a.2 b.2 with g | g | g
      · exact .inl (.inr ⟨h, g⟩)
      · exact .inr (.inl (Prod.ext h g))
      · exact .inr (.inr (.inr ⟨h.symm, g⟩))
    · exact .inr (.inr (.inl h))

theorem nodeKeyLt_strict : StrictTotal nodeKeyLt := lex_strict pathLt_strict
theorem staleLt_strict : StrictTotal staleLt := lex_strict nodeKeyLt_strict

/-- The numbers and lengths of a serialised batch fit into their Rust types, and its maps are in order. -/
structure WireFits (w : WireBatch) : Prop where
  nodes : w.nodes.entries.length < 2 ^ 32 ∧ (∀ e ∈ w.nodes.entries, (e.1.1 < 2 ^ 64 ∧ PathFits e.1.2) ∧ NodeFits e.2) ∧
    OMap.Sorted nodeKeyLt w.nodes.entries
  values : w.values.entries.length < 2 ^ 32 ∧ (∀ e ∈ w.values.entries, e.1.1 < 2 ^ 64 ∧ ∀ x, e.2 = some x → x.length < 2 ^ 32) ∧
    OMap.Sorted valueKeyLt w.values.entries
  stale : w.stale.entries.length < 2 ^ 32 ∧ (∀ e ∈ w.stale.entries, e.1.1 < 2 ^ 64 ∧ e.1.2.1 < 2 ^ 64 ∧ PathFits e.1.2.2) ∧
    OMap.Sorted staleLt w.stale.entries
  stats : w.stats.length < 2 ^ 32 ∧ ∀ s ∈ w.stats, s.newNodes < 2 ^ 64 ∧ s.newLeaves < 2 ^ 64 ∧ s.staleNodes < 2 ^ 64 ∧ s.staleLeaves < 2 ^ 64

theorem statsCodec_law : statsCodec.Law (fun s => s.newNodes < 2 ^ 64 ∧ s.newLeaves < 2 ^ 64 ∧ s.staleNodes < 2 ^ 64 ∧ s.staleLeaves < 2 ^ 64) :=
  map_law (pair_law u64_law (pair_law u64_law (pair_law u64_law u64_law))) _ _ (fun _ => rfl) (fun _ => rfl)

theorem updateBatchCodec_back : updateBatchCodec.Back WireFits := by
  have h1 := btreeMap_back nodeKeyLt_strict (pair_law nodeKeyCodec_law nodeCodec_law)
  have h2 := btreeMap_back valueKeyLt_strict (pair_law (pair_law u64_law bytes32_law) (option_law (vec_law u8_law)))
  have h3 := btreeSet_back staleLt_strict staleCodec_law
  have h4 := (vec_law statsCodec_law).toBack
  have h := map_back (pair_back (pair_back h1 h2) (pair_back h3 h4)) (fun x => (⟨x.1.1, x.1.2, x.2.1, x.2.2⟩ : WireBatch))
    (fun b => ((b.nodes, b.values), b.stale, b.stats)) (fun _ => rfl)
  intro a r ha
  exact h a r ⟨⟨ha.nodes, ha.values.1, fun e he => ⟨⟨(ha.values.2.1 e he).1, trivial⟩, fun x hx => ⟨(ha.values.2.1 e he).2 x hx, fun _ _ => trivial⟩⟩,
    ha.values.2.2⟩, ha.stale, ha.stats⟩

theorem packNodes_ok (l : List (NodeKey × Node Key)) (h : ∀ e ∈ l, e.1.path.length ≤ 64) :
    packNodes l = .ok (l.map (fun e => ((e.1.version, packed e.1.path), e.2))) := by
  induction l with
  | nil => rfl
  | cons e t ih =>
    obtain ⟨nk, n⟩ := e
    simp only [packNodes, fromIter_packed _ (h (nk, n) (by simp)), ih (fun e he => h e (List.mem_cons_of_mem _ he)), Res.ok_bind]
    rfl

theorem packStale_ok (l : List StaleNodeIndex) (h : ∀ i ∈ l, i.nodeKey.path.length ≤ 64) :
    packStale l = .ok (l.map (fun i => ((i.staleSinceVersion, i.nodeKey.version, packed i.nodeKey.path), ()))) := by
  induction l with
  | nil => rfl
  | cons i t ih =>
    simp only [packStale, fromIter_packed _ (h i (by simp)), ih (fun e he => h e (List.mem_cons_of_mem _ he)), Res.ok_bind]
    rfl

theorem lookupL_map_inj {K K' V : Type} [DecidableEq K] [DecidableEq K'] (f : K → K') (hf : ∀ a b, f a = f b → a = b) (l : List (K × V)) (k : K) :
    FMap.lookupL (l.map (fun e => (f e.1, e.2))) (f k) = FMap.lookupL l k := by
  induction l with
  | nil => rfl
  | cons e t ih =>
    simp only [List.map_cons, FMap.lookupL, ih]
    by_cases h : e.1 = k
    · simp [h]
    · rw [if_neg h, if_neg (fun he => h (hf _ _ he))]

theorem insertL_mem {K V : Type} [DecidableEq K] {lt : K → K → Bool} {l : List (K × V)} {m : OMap K V} {e : K × V}
    (h : e ∈ (m.extend lt l).entries) : e ∈ m.entries ∨ e ∈ l := by
  induction l generalizing m with
  | nil => exact .inl h
  | cons a t ih =>
    rcases ih (m := m.insert lt a.1 a.2) h with h | h
    · rcases OMap.insertL_mem_fst _ _ _ h with h | h
      · exact .inr (by rw [h]; simp)
      · exact .inl h
    · exact .inr (List.mem_cons_of_mem _ h)

theorem insertL_length {K V : Type} [DecidableEq K] {lt : K → K → Bool} (k : K) (v : V) (l : List (K × V)) :
    (OMap.insertL lt k v l).length ≤ l.length + 1 := by
  induction l with
  | nil => simp [OMap.insertL]
  | cons a t ih =>
    simp only [OMap.insertL]
    split_ifs <;> simp <;> omega

theorem extend_length {K V : Type} [DecidableEq K] {lt : K → K → Bool} (l : List (K × V)) (m : OMap K V) :
    (m.extend lt l).entries.length ≤ m.entries.length + l.length := by
  induction l generalizing m with
  | nil => simp [OMap.extend]
  | cons a t ih =>
    have h1 := ih (m.insert lt a.1 a.2)
    have h2 := insertL_length (lt := lt) a.1 a.2 m.entries
    have e : m.extend lt (a :: t) = (m.insert lt a.1 a.2).extend lt t := rfl
    rw [e]
    simp only [OMap.insert] at h1 ⊢
    simp only [List.length_cons]
    omega

end Jmt
end Verif
