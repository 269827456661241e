import Mathlib.Data.List.GetD
import Mathlib.Data.List.Sort
import Verif.Proofs.ChainMemory
import Verif.Model.Layouts

/-! The layouts of the semirings of the library, and what `convert` does to memory. -/

open View HeapM

namespace MemoryProofs

theorem lawful_single (S : SR ℝ) (h : S.raw0 = 0) : Lawful Memory.single S fun _ => True where
  dec_enc _ _ := rfl
  enc_dec f s hs := congrArg f (Nat.lt_one_iff.1 hs).symm
  congr f g hfg := hfg 0 Nat.one_pos
  ok_dec _ := trivial
  raw0 := h.symm
  zero := trivial
  one := trivial
  mul _ _ _ _ := trivial
  sum _ _ _ := trivial

theorem lawful_two (S : SR (ℝ × ℝ)) (h : S.raw0 = (0, 0)) : Lawful Memory.two S fun _ => True where
  dec_enc _ _ := rfl
  enc_dec f s hs := by
    have : s = 0 ∨ s = 1 := by simp only [Memory.two] at hs; omega
    rcases this with rfl | rfl <;> rfl
  congr f g hfg := Prod.ext (hfg 0 (by norm_num [Memory.two])) (hfg 1 (by norm_num [Memory.two]))
  ok_dec _ := trivial
  raw0 := h.symm
  zero := trivial
  one := trivial
  mul _ _ _ _ := trivial
  sum _ _ _ := trivial

theorem lawful_three (S : SR (ℝ × ℝ × ℝ)) (h : S.raw0 = (0, 0, 0)) : Lawful Memory.three S fun _ => True where
  dec_enc _ _ := rfl
  enc_dec f s hs := by
    have : s = 0 ∨ s = 1 ∨ s = 2 := by simp only [Memory.three] at hs; omega
    rcases this with rfl | rfl | rfl <;> rfl
  congr f g hfg := Prod.ext (hfg 0 (by norm_num [Memory.three])) (Prod.ext (hfg 1 (by norm_num [Memory.three])) (hfg 2 (by norm_num [Memory.three])))
  ok_dec _ := trivial
  raw0 := h.symm
  zero := trivial
  one := trivial
  mul _ _ _ _ := trivial
  sum _ _ _ := trivial

theorem topk_length (k : ℕ) (xs : List ℝ) (h : k ≤ xs.length) : (Semirings.topk k xs).length = k := by
  rw [Semirings.topk, List.length_take, List.length_insertionSort]
  omega

theorem lawful_slots (k : ℕ) : Lawful (Memory.slots k) (Semirings.kmax k) fun x => x.length = k where
  dec_enc x hx := by
    refine List.ext_getElem (by simp [Memory.slots, hx]) fun i h1 h2 => ?_
    simp [Memory.slots, List.getElem?_eq_getElem h2]
  enc_dec f s hs := by
    have hs : s < k := hs
    simp [Memory.slots, hs]
  congr f g hfg := List.map_congr_left fun s hs => hfg s (List.mem_range.1 hs)
  ok_dec f := by simp [Memory.slots]
  raw0 := by simp [Memory.slots, Semirings.kmax]
  zero := by simp [Semirings.kmax]
  one := by simp [Semirings.kmax]
  mul x y hx hy := by
    refine topk_length k _ ?_
    rw [List.length_flatMap]
    simp only [List.length_map, List.map_const', List.sum_replicate, smul_eq_mul, hx, hy]
    rcases Nat.eq_zero_or_pos k with rfl | hk
    · exact le_rfl
    · nlinarith
  sum l hl h := by
    refine topk_length k _ ?_
    rcases l with _ | ⟨x, l⟩
    · exact absurd rfl hl
    · rw [List.flatten_cons, List.length_append, h x List.mem_cons_self]
      omega

/-! ### `convert` -/

theorem addr_select (n k : ℕ) (shape : List ℕ) (i : ℕ) (ix : List ℕ) : ((tens n (k :: shape)).select 0 i).addr ix = ravel (k :: shape) (i :: ix) := by
  simp [select, addr, tens, ravel, rowMajor]

theorem read_write_select (h : Heap) (n k : ℕ) (shape : List ℕ) (i : ℕ) (hi : i < k) (f : List ℕ → ℝ) (s : ℕ) (hs : s < k) (ix : List ℕ)
    (hv : Valid shape ix) : (h.write ((tens n (k :: shape)).select 0 i) f).read (tens n (k :: shape)) (s :: ix) =
      if s = i then f ix else h.read (tens n (k :: shape)) (s :: ix) := by
  have hsh : ((tens n (k :: shape)).select 0 i).shape = shape := by simp [select, tens]
  split_ifs with he
  · subst he
    refine read_write_hit h _ _ _ _ ix rfl (by rw [hsh]; exact hv) (by rw [addr_select, addr_tens]) fun jx hj he => ?_
    rw [hsh] at hj
    rw [addr_select, addr_select] at he
    exact (List.cons.inj (ravel_inj (show Valid (k :: shape) (s :: jx) from ⟨hs, hj⟩) (show Valid (k :: shape) (s :: ix) from ⟨hs, hv⟩) he)).2
  · refine read_write_miss h _ _ _ _ fun _ jx hj hc => ?_
    rw [hsh] at hj
    rw [addr_select, addr_tens] at hc
    exact he (List.cons.inj (ravel_inj (show Valid (k :: shape) (i :: jx) from ⟨hi, hj⟩) (show Valid (k :: shape) (s :: ix) from ⟨hs, hv⟩) hc)).1.symm

theorem converts_view (h : Heap) (t : View) (ht : t.storage < h.next) : Spec.Converts Memory.single h (Memory.convertView t) t.shape fun ix => h.read t ix :=
  ⟨t.unsqueeze0, h, rfl, ⟨le_rfl, fun _ _ => rfl⟩, ht, rfl, fun ix _ => by
    simp [Layout.get, Memory.single, Heap.read, unsqueeze0, addr]⟩

theorem converts_kmax (k : ℕ) (h : Heap) (t : View) (ht : t.storage < h.next) :
    Spec.Converts (Memory.slots k) h (Memory.convertKMax k t) t.shape fun ix => Semirings.kmaxConvert k (h.read t ix) := by
  have x1 : Ext h (h.push (k :: t.shape) fun _ => 0) := (Ext.refl h).push _ _
  have x2 : Ext h ((h.push (k :: t.shape) fun _ => 0).push (k :: t.shape) fun _ => Semirings.negInf) := x1.push _ _
  have x3 := x2.write ((tens (h.next + 1) (k :: t.shape)).select 0 0) (show h.next ≤ h.next + 1 by omega)
    (((h.push (k :: t.shape) fun _ => 0).push (k :: t.shape) fun _ => Semirings.negInf).read t)
  refine ⟨tens (h.next + 1) (k :: t.shape), _, rfl, ⟨x3.next, x3.data⟩, Nat.lt_succ_self _, rfl, fun ix hv => ?_⟩
  refine List.map_congr_left fun s hs => ?_
  have hs := List.mem_range.1 hs
  refine (read_write_select _ _ _ _ 0 (by omega) _ s hs ix hv).trans ?_
  split_ifs with h0
  · exact x2.read t ht ix
  · exact read_push_new (h.push (k :: t.shape) fun _ => 0) (k :: t.shape) (fun _ => Semirings.negInf) (s :: ix) ⟨hs, hv⟩

theorem converts_entropy (h : Heap) (t : View) (ht : t.storage < h.next) :
    Spec.Converts Memory.two h (Memory.convertEntropy t) t.shape fun ix => Semirings.entropyConvert (h.read t ix) := by
  have x1 : Ext h (h.push (2 :: t.shape) fun _ => 0) := (Ext.refl h).push _ _
  have x2 := x1.write ((tens h.next (2 :: t.shape)).select 0 0) (show h.next ≤ h.next by omega) ((h.push (2 :: t.shape) fun _ => 0).read t)
  have x3 := x2.write ((tens h.next (2 :: t.shape)).select 0 1) (show h.next ≤ h.next by omega) fun _ => 0
  refine ⟨tens h.next (2 :: t.shape), _, rfl, ⟨x3.next, x3.data⟩, Nat.lt_succ_self _, rfl, fun ix hv => ?_⟩
  refine Prod.ext ?_ ?_
  · refine (read_write_select _ _ _ _ 1 (by omega) _ 0 (by omega) ix hv).trans ?_
    rw [if_neg (by omega)]
    refine (read_write_select _ _ _ _ 0 (by omega) _ 0 (by omega) ix hv).trans ?_
    rw [if_pos rfl]
    exact x1.read t ht ix
  · refine (read_write_select _ _ _ _ 1 (by omega) _ 1 (by omega) ix hv).trans ?_
    rw [if_pos rfl]; rfl

theorem converts_pair (h : Heap) (t u : View) (ht : t.storage < h.next) (hu : u.storage < h.next) :
    Spec.Converts Memory.three h (Memory.convertPair t u) t.shape fun ix => Semirings.pairConvert (h.read t ix, h.read u ix) := by
  have x1 : Ext h (h.push (3 :: t.shape) fun _ => 0) := (Ext.refl h).push _ _
  have x2 := x1.write ((tens h.next (3 :: t.shape)).select 0 0) (show h.next ≤ h.next by omega) ((h.push (3 :: t.shape) fun _ => 0).read t)
  have x3 := x2.write ((tens h.next (3 :: t.shape)).select 0 1) (show h.next ≤ h.next by omega)
    (((h.push (3 :: t.shape) fun _ => 0).write ((tens h.next (3 :: t.shape)).select 0 0) ((h.push (3 :: t.shape) fun _ => 0).read t)).read u)
  have x4 := x3.write ((tens h.next (3 :: t.shape)).select 0 2) (show h.next ≤ h.next by omega) fun _ => 0
  refine ⟨tens h.next (3 :: t.shape), _, rfl, ⟨x4.next, x4.data⟩, Nat.lt_succ_self _, rfl, fun ix hv => ?_⟩
  refine Prod.ext ?_ (Prod.ext ?_ ?_)
  · refine (read_write_select _ _ _ _ 2 (by omega) _ 0 (by omega) ix hv).trans ?_
    rw [if_neg (by omega)]
    refine (read_write_select _ _ _ _ 1 (by omega) _ 0 (by omega) ix hv).trans ?_
    rw [if_neg (by omega)]
    refine (read_write_select _ _ _ _ 0 (by omega) _ 0 (by omega) ix hv).trans ?_
    rw [if_pos rfl]
    exact x1.read t ht ix
  · refine (read_write_select _ _ _ _ 2 (by omega) _ 1 (by omega) ix hv).trans ?_
    rw [if_neg (by omega)]
    refine (read_write_select _ _ _ _ 1 (by omega) _ 1 (by omega) ix hv).trans ?_
    rw [if_pos rfl]
    exact x2.read u hu ix
  · refine (read_write_select _ _ _ _ 2 (by omega) _ 2 (by omega) ix hv).trans ?_
    rw [if_pos rfl]; rfl

end MemoryProofs
