import Verif.Model.Base64
import Verif.Base64Spec
import Verif.Contract
import Verif.ProducerSpec

namespace Strigi

theorem forall_uint8 {p : UInt8 → Prop} (h : ∀ n : Fin 256, p (UInt8.ofFin n)) (c : UInt8) : p c := by
  have := h c.toFin
  simpa using this

namespace Base64

theorem tables : ∀ c : UInt8, inalphabet c = (B64.value c).isSome ∧
    (∀ v, B64.value c = some v → decoder c = v ∧ v < 64) := by
  apply forall_uint8
  have : ∀ n : Fin 256, inalphabet (UInt8.ofFin n) = (B64.value (UInt8.ofFin n)).isSome ∧
      (B64.value (UInt8.ofFin n) = some (decoder (UInt8.ofFin n)) ∧ decoder (UInt8.ofFin n) < 64 ∨
        B64.value (UInt8.ofFin n) = none) := by decide +kernel
  intro n
  refine ⟨(this n).1, fun v hv => ?_⟩
  rcases (this n).2 with h | h
  · rw [h.1] at hv; cases hv; exact ⟨rfl, h.2⟩
  · rw [h] at hv; cases hv

theorem value_pad : B64.value 61 = none := by decide

/-- What is decoded from the bytes `l` when `count` characters of the current group have been seen, with
accumulated value `bits`. -/
def run : Nat → Nat → List UInt8 → List UInt8
  | _, _, [] => []
  | count, bits, c :: l =>
    if c = 61 then
      if count = 2 then [byte (bits / 2 ^ 10 % 256)]
      else if count = 3 then [byte (bits / 2 ^ 8 / 2 ^ 8 % 256), byte (bits / 2 ^ 8 % 256)]
      else []
    else match B64.value c with
      | none => run count bits l
      | some v =>
        if count + 1 = 4 then
          [byte ((bits + v) / 2 ^ 16), byte ((bits + v) / 2 ^ 8 % 256), byte ((bits + v) % 256)] ++ run 0 0 l
        else run (count + 1) ((bits + v) * 2 ^ 6) l

/-- The bytes that are still to be written out of `bits`. -/
def pending (bits : Nat) : Nat → List UInt8
  | 0 => []
  | 1 => [byte (bits % 256)]
  | 2 => [byte (bits / 2 ^ 8 % 256), byte (bits % 256)]
  | _ => [byte (bits / 2 ^ 16), byte (bits / 2 ^ 8 % 256), byte (bits % 256)]

variable {σ : Type} {P : StreamOps σ UInt8} {c : List UInt8} {F : Failure} {H : σ → Int → Int → Prop}

/-- The input bytes not yet looked at. -/
def remaining (P : StreamOps σ UInt8) (c : List UInt8) (s : State σ) : List UInt8 :=
  s.chunk ++ c.drop (P.position s.input).toNat

/-- The bytes still to be delivered. -/
def restOf (P : StreamOps σ UInt8) (c : List UInt8) (s : State σ) : List UInt8 :=
  pending s.bits s.todo ++
    if s.isOpen then
      if s.todo = 0 then run s.count s.bits (remaining P c s) else run 0 0 (remaining P c s)
    else []

structure Ok (P : StreamOps σ UInt8) (H : σ → Int → Int → Prop) (N : Nat) (c : List UInt8) (s : State σ) :
    Prop where
  todo : s.todo ≤ 3
  inp : s.isOpen = true → ∃ lo hi, H s.input lo hi
  fuel : s.isOpen = true → (remaining P c s).length < N
  bits : s.isOpen = true → s.todo = 0 → s.count ≤ 3 ∧ ∃ x, s.bits = 64 * x ∧ x < 64 ^ s.count

theorem moreData_spec (C : Contract P c F H) {N : Nat} {s : State σ} (hs : Ok P H N c s) (ho : s.isOpen = true) :
    ∃ s' more err, moreData P s = .ok (s', more, err) ∧
      ((more = true ∧ err = false ∧ Ok P H N c s' ∧ s'.isOpen = true ∧ s'.todo = s.todo ∧
          s'.count = s.count ∧ s'.bits = s.bits ∧ remaining P c s' = remaining P c s ∧ s'.chunk ≠ []) ∨
        (more = false ∧ err = false ∧ s'.isOpen = false ∧ s'.todo = s.todo ∧ remaining P c s = []) ∨
        (F.onRead ∧ more = false ∧ err = true ∧ s'.isOpen = false ∧ s'.todo = s.todo)) := by
  unfold moreData
  by_cases hc : s.chunk = []
  · rw [if_pos hc]
    obtain ⟨lo, hi, hH⟩ := hs.inp ho
    have hr := C.range hH
    obtain ⟨p, n, d, e, r, w⟩ := C.read hH (min := 1) (max := 0) (Int.le_refl _) (Or.inl rfl)
    rw [e]
    simp only [Res.bind_ok]
    cases r with
    | data pos items inside adv limit enough st =>
      rw [if_neg (by omega), if_neg (by omega)]
      refine ⟨_, _, _, rfl, Or.inl ⟨rfl, rfl, ?_, ho, rfl, rfl, rfl, ?_, ?_⟩⟩
      all_goals
        have hrem : d ++ c.drop (P.position p).toNat = c.drop (P.position s.input).toNat := by
          rw [adv, items]; unfold slice
          rw [show (P.position s.input + n).toNat = (P.position s.input).toNat + n.toNat by omega,
            ← List.drop_drop, List.take_append_drop]
      · refine ⟨hs.todo, fun _ => ⟨_, _, w st⟩, fun _ => ?_, hs.bits⟩
        have := hs.fuel ho
        unfold remaining at this ⊢
        rw [hc] at this
        simp only
        rw [hrem]; simpa using this
      · unfold remaining; simp only [hc]; rw [hrem]; rfl
      · simp only
        intro z
        have := slice_length (c := c) (by omega) (Int.le_of_lt pos) inside
        rw [← items, z] at this
        simp at this; omega
    | ended none nodata atEnd stay st =>
      rw [if_neg (by omega), if_pos (by omega)]
      refine ⟨_, _, _, rfl, Or.inr (Or.inl ⟨rfl, rfl, rfl, rfl, ?_⟩)⟩
      unfold remaining
      rw [hc, atEnd]; simp
    | failed allowed code st =>
      rw [if_pos code]
      exact ⟨_, _, _, rfl, Or.inr (Or.inr ⟨allowed, rfl, rfl, rfl, rfl⟩)⟩
  · rw [if_neg hc]
    exact ⟨_, _, _, rfl, Or.inl ⟨rfl, rfl, hs, ho, rfl, rfl, rfl, rfl, hc⟩⟩

theorem loop_spec (C : Contract P c F H) {space : Int} (hsp : 0 < space) {N : Nat} :
    ∀ (fuel : Nat) (s : State σ) (out : List UInt8), Ok P H N c s → s.isOpen = true → s.todo = 0 →
      (remaining P c s).length < fuel → (out.length : Int) ≤ space →
      ∃ s' out' err, loop P space fuel s out = .ok (s', out', err) ∧ (out'.length : Int) ≤ space ∧
        ((err = false ∧ Ok P H N c s' ∧
            out ++ run s.count s.bits (remaining P c s) = out' ++ restOf P c s' ∧
            (s'.isOpen = true → s'.todo ≠ 0 ∧ space ≤ out'.length)) ∨
          (F.onRead ∧ err = true ∧ s'.isOpen = false ∧ s'.todo = 0 ∧
            ∃ rest, out ++ run s.count s.bits (remaining P c s) = out' ++ rest)) := by
  intro fuel
  induction fuel with
  | zero => intro s out _ _ _ h; omega
  | succ fuel ih =>
    intro s out hs ho ht hf hl
    unfold loop
    obtain ⟨s1, more, err, e, h⟩ := moreData_spec C hs ho
    rw [e]
    simp only [Res.bind_ok]
    rcases h with ⟨rfl, rfl, k1, k2, k3, k4, k5, k6, k7⟩ | ⟨rfl, rfl, k1, k2, k3⟩ | ⟨k0, rfl, rfl, k1, k2⟩
    · simp only [Bool.not_true, Bool.false_eq_true, if_false]
      rw [← k4, ← k5, ← k6]
      rw [← k6] at hf
      obtain ⟨lo, hi, hH⟩ := k1.inp k2
      cases hch : s1.chunk with
      | nil => exact absurd hch k7
      | cons b chunk =>
        simp only
        have hrem : remaining P c s1 = b :: (chunk ++ c.drop (P.position s1.input).toNat) := by
          unfold remaining; rw [hch]; rfl
        rw [hrem] at hf ⊢
        simp only [List.length_cons, List.length_append] at hf
        have hN := k1.fuel k2
        rw [hrem] at hN
        simp only [List.length_cons, List.length_append] at hN
        have hb := k1.bits k2 (by omega)
        by_cases hpad : b = 61
        · rw [if_pos hpad]
          subst hpad
          have hrun : run s1.count s1.bits (61 :: (chunk ++ c.drop (P.position s1.input).toNat)) =
              (if s1.count = 2 then [byte (s1.bits / 2 ^ 10 % 256)]
                else if s1.count = 3 then [byte (s1.bits / 2 ^ 8 / 2 ^ 8 % 256), byte (s1.bits / 2 ^ 8 % 256)]
                else []) := by
            rw [run]; simp
          rw [hrun]
          by_cases h2 : s1.count = 2
          · rw [if_pos h2, if_pos h2]
            refine ⟨_, _, _, rfl, hl, Or.inl ⟨rfl, ⟨by simp, by simp, by simp, by simp⟩, ?_, by simp⟩⟩
            simp [restOf, pending]
          · rw [if_neg h2, if_neg h2]
            by_cases h3 : s1.count = 3
            · rw [if_pos h3, if_pos h3]
              refine ⟨_, _, _, rfl, hl, Or.inl ⟨rfl, ⟨by simp, by simp, by simp, by simp⟩, ?_, by simp⟩⟩
              simp [restOf, pending]
            · rw [if_neg h3, if_neg h3]
              refine ⟨_, _, _, rfl, hl, Or.inl ⟨rfl, ⟨by simp only; omega, by simp, by simp, by simp⟩, ?_, by simp⟩⟩
              simp [restOf, k3, ht, pending]
        · rw [if_neg hpad]
          obtain ⟨t1, t2⟩ := tables b
          have hrun := run.eq_2 s1.count s1.bits b (chunk ++ c.drop (P.position s1.input).toNat)
          rw [if_neg hpad] at hrun
          cases hv : B64.value b with
          | none =>
            rw [hv] at t1 hrun
            simp only at hrun
            rw [if_pos (by simp [t1]), hrun]
            refine ih _ out ⟨k1.todo, fun _ => ⟨lo, hi, hH⟩, fun _ => ?_, fun _ _ => hb⟩ k2
              (by simp only; omega) ?_ hl
            · unfold remaining; simp only [List.length_append]; omega
            · unfold remaining; simp only [List.length_append]; omega
          | some v =>
            rw [hv] at t1 hrun
            simp only at hrun
            obtain ⟨hd, hv64⟩ := t2 v hv
            rw [if_neg (by simp [t1]), hrun, hd]
            obtain ⟨hc3, x, hx1, hx2⟩ := hb
            by_cases h4 : s1.count + 1 = 4
            · rw [if_pos h4, if_pos h4]
              by_cases l1 : (out.length : Int) ≥ space
              · rw [if_pos l1]
                refine ⟨_, _, _, rfl, hl, Or.inl ⟨rfl, ⟨by simp, fun _ => ⟨lo, hi, hH⟩, fun _ => ?_,
                  by simp⟩, ?_, fun _ => ⟨by simp, l1⟩⟩⟩
                · unfold remaining; simp only [List.length_append]; omega
                · simp [restOf, pending, k2, remaining]
              · rw [if_neg l1]
                by_cases l2 : ((out ++ [byte ((s1.bits + v) / 2 ^ 16)]).length : Int) ≥ space
                · rw [if_pos l2]
                  refine ⟨_, _, _, rfl, ?_, Or.inl ⟨rfl, ⟨by simp, fun _ => ⟨lo, hi, hH⟩, fun _ => ?_,
                    by simp⟩, ?_, fun _ => ⟨by simp, l2⟩⟩⟩
                  · simp only [List.length_append, List.length_singleton] at l2 ⊢; omega
                  · unfold remaining; simp only [List.length_append]; omega
                  · simp [restOf, pending, k2, remaining]
                · rw [if_neg l2]
                  by_cases l3 : ((out ++ [byte ((s1.bits + v) / 2 ^ 16)] ++
                      [byte ((s1.bits + v) / 2 ^ 8 % 256)]).length : Int) ≥ space
                  · rw [if_pos l3]
                    refine ⟨_, _, _, rfl, ?_, Or.inl ⟨rfl, ⟨by simp, fun _ => ⟨lo, hi, hH⟩, fun _ => ?_,
                      by simp⟩, ?_, fun _ => ⟨by simp, l3⟩⟩⟩
                    · simp only [List.length_append, List.length_singleton] at l2 l3 ⊢; omega
                    · unfold remaining; simp only [List.length_append]; omega
                    · simp [restOf, pending, k2, remaining]
                  · rw [if_neg l3]
                    have := ih ⟨s1.input, s1.isOpen, chunk, 0, s1.todo, 0⟩
                      (out ++ [byte ((s1.bits + v) / 2 ^ 16)] ++ [byte ((s1.bits + v) / 2 ^ 8 % 256)] ++
                        [byte ((s1.bits + v) % 256)])
                      ⟨k1.todo, fun _ => ⟨lo, hi, hH⟩, fun _ => by
                        unfold remaining; simp only [List.length_append]; omega,
                        fun _ _ => ⟨by simp, 0, by simp⟩⟩ k2
                      (by simp only; omega)
                      (by unfold remaining; simp only [List.length_append]; omega)
                      (by simp only [List.length_append, List.length_singleton] at l3 ⊢; omega)
                    simp only [List.append_assoc, List.cons_append, List.nil_append] at this ⊢
                    exact this
            · rw [if_neg h4, if_neg h4]
              refine ih _ out ⟨k1.todo, fun _ => ⟨lo, hi, hH⟩, fun _ => ?_, fun _ _ => ⟨by simp only; omega,
                  s1.bits + v, by simp only; omega, ?_⟩⟩ k2 (by simp only; omega) ?_ hl
              · unfold remaining; simp only [List.length_append]; omega
              · simp only; rw [Nat.pow_succ]; omega
              · unfold remaining; simp only [List.length_append]; omega
    · simp only [Bool.not_false, if_true]
      refine ⟨_, _, _, rfl, hl, Or.inl ⟨rfl, ⟨by omega, by simp [k1], by simp [k1], by simp [k1]⟩, ?_,
        by simp [k1]⟩⟩
      rw [k3]
      simp [restOf, k1, k2, ht, pending, run]
    · simp only [Bool.not_false, if_true]
      refine ⟨_, _, _, rfl, hl, Or.inr ⟨k0, rfl, k1, by omega, _, rfl⟩⟩

/-- The relation between the state and what is still to be delivered. -/
def Rest (P : StreamOps σ UInt8) (H : σ → Int → Int → Prop) (N : Nat) (c : List UInt8) (s : State σ)
    (rest : List UInt8) (m : Nat) : Prop :=
  Ok P H N c s ∧ rest = restOf P c s ∧ m = rest.length + (if s.isOpen then 1 else 0) ∧ m < N

theorem produces (C : Contract P c F H) (N : Nat) : Produces (producer P N) F.onRead (Rest P H N c) where
  fuel h := h.2.2.2
  step := by
    intro s rest m h space hsp
    obtain ⟨hs, hrest, hm, hN⟩ := h
    simp only [producer, fill]
    by_cases h1 : (!s.isOpen) = true ∧ s.todo = 0
    · rw [if_pos h1]
      have ho : s.isOpen = false := by simpa using h1.1
      refine ⟨_, _, rfl, Or.inr (Or.inl ⟨rfl, by simp, rfl, ?_⟩)⟩
      rw [hrest]; simp [restOf, ho, h1.2, pending]
    · rw [if_neg h1]
      by_cases h2 : s.todo ≠ 0
      · rw [if_pos h2]
        have h3 := hs.todo
        have step : ∀ (s' : State σ) (x : UInt8), s'.isOpen = s.isOpen → s'.input = s.input →
            s'.chunk = s.chunk → s'.todo = s.todo - 1 →
            (s'.todo = 0 → s'.bits = 0 ∧ s'.count = 0) →
            pending s.bits s.todo = x :: pending s'.bits s'.todo →
            ∃ f' r, (Res.ok (s', Fill.mk 1 [x] false) : Res (State σ × Fill UInt8)) = .ok (f', r) ∧
              (r.error = false ∧ r.n = r.data.length ∧ r.n ≤ space ∧
                ∃ rest' m', rest = r.data ++ rest' ∧ m' < m ∧ Rest P H N c f' rest' m') := by
          intro s' x e1 e2 e3 e4 e5 e6
          have hrem : remaining P c s' = remaining P c s := by unfold remaining; rw [e2, e3]
          have hr' : rest = [x] ++ restOf P c s' := by
            rw [hrest]; unfold restOf
            rw [e6, e1, hrem, if_neg h2]
            by_cases z : s'.todo = 0
            · rw [if_pos z, (e5 z).1, (e5 z).2]; rfl
            · rw [if_neg z]; rfl
          refine ⟨_, _, rfl, rfl, rfl, by simp only; omega, restOf P c s', _, hr', ?_, ⟨?_, rfl, rfl, ?_⟩⟩
          · rw [hm, hr', e1]; simp
          · refine ⟨by omega, fun z => by rw [e2]; exact hs.inp (by rw [← e1]; exact z),
              fun z => by rw [hrem]; exact hs.fuel (by rw [← e1]; exact z), fun _ z => ?_⟩
            rw [(e5 z).1, (e5 z).2]; exact ⟨by omega, 0, by simp⟩
          · rw [hm, hr'] at hN; rw [e1]; simp at hN ⊢; omega
        by_cases t3 : s.todo = 3
        · rw [if_pos t3]
          obtain ⟨f', r, e, g⟩ := step { s with todo := s.todo - 1 } (byte (s.bits / 2 ^ 16)) rfl rfl rfl rfl
            (by simp only; omega) (by simp [t3, pending])
          exact ⟨f', r, e, Or.inl g⟩
        · rw [if_neg t3]
          by_cases t2 : s.todo = 2
          · rw [if_pos t2]
            obtain ⟨f', r, e, g⟩ := step { s with todo := s.todo - 1 } (byte (s.bits / 2 ^ 8 % 256)) rfl rfl rfl rfl
              (by simp only; omega) (by simp [t2, pending])
            exact ⟨f', r, e, Or.inl g⟩
          · rw [if_neg t2]
            have t1 : s.todo = 1 := by omega
            obtain ⟨f', r, e, g⟩ := step { s with todo := s.todo - 1, bits := 0, count := 0 } (byte (s.bits % 256))
              rfl rfl rfl rfl (by simp) (by simp [t1, pending])
            exact ⟨f', r, e, Or.inl g⟩
      · rw [if_neg h2]
        have ht : s.todo = 0 := by omega
        have ho : s.isOpen = true := by
          cases hh : s.isOpen with
          | true => rfl
          | false => exact absurd ⟨by simp [hh], ht⟩ h1
        obtain ⟨s', out, err, e, hl, g⟩ := loop_spec C hsp N s [] hs ho ht (hs.fuel ho) (by simp; omega)
        rw [e]
        simp only [Res.bind_ok]
        have hr0 : rest = run s.count s.bits (remaining P c s) := by
          rw [hrest]; simp [restOf, ht, ho, pending]
        rw [if_pos ho] at hm
        rcases g with ⟨rfl, g1, g2, g3⟩ | ⟨g0, rfl, g1, g2, rest', g3⟩
        · rw [← hr0, List.nil_append] at g2
          have hlen := congrArg List.length g2
          rw [List.length_append] at hlen
          by_cases hz : out = [] ∧ (!s'.isOpen) = true ∧ s'.todo = 0
          · rw [if_pos hz]
            have ho' : s'.isOpen = false := by simpa using hz.2.1
            refine ⟨_, _, rfl, Or.inr (Or.inl ⟨rfl, by simp, hz.1, ?_⟩)⟩
            rw [g2, hz.1]; simp [restOf, ho', hz.2.2, pending]
          · rw [if_neg hz]
            refine ⟨_, _, rfl, Or.inl ⟨rfl, rfl, hl, restOf P c s', _, g2, ?_, ⟨g1, rfl, rfl, ?_⟩⟩⟩
            all_goals
              have h6 : s'.isOpen = true → 0 < out.length := by intro z; have := (g3 z).2; omega
              cases hh : s'.isOpen with
              | true => have := h6 hh; simp; omega
              | false => simp; omega
        · rw [← hr0, List.nil_append] at g3
          by_cases hz : out = []
          · rw [if_pos ⟨hz, by simp [g1], g2⟩]
            exact ⟨_, _, rfl, Or.inr (Or.inr (Or.inl ⟨g0, rfl, by simp, hl⟩))⟩
          · rw [if_neg (by simp [hz])]
            refine ⟨_, _, rfl, Or.inr (Or.inr (Or.inr ⟨g0, rfl, rfl, hl, by omega, ⟨rest', g3⟩, ?_⟩))⟩
            intro _ space' _
            rw [if_pos ⟨by simp [g1], g2⟩]
            exact ⟨_, _, rfl, by simp, rfl⟩

theorem run_length : ∀ (l : List UInt8) (k b : Nat), k ≤ 3 → (run k b l).length ≤ l.length + k := by
  intro l
  induction l with
  | nil => intro k b _; simp [run]
  | cons c l ih =>
    intro k b hk
    unfold run
    split
    · split
      · simp; omega
      · split
        · simp; omega
        · simp
    · split
      · have := ih k b hk; simp only [List.length_cons]; omega
      · rename_i v _
        split
        · have := ih 0 0 (by omega); simp only [List.length_append, List.length_cons, List.length_nil]; omega
        · have := ih (k + 1) ((b + v) * 2 ^ 6) (by omega); simp only [List.length_cons]; omega

/-- The number formed by some values. -/
def number (vs : List Nat) : Nat := vs.foldl (fun x v => (x + v) * 64) 0

theorem value_lt {c : UInt8} {v : Nat} (h : B64.value c = some v) : v < 64 := ((tables c).2 v h).2

theorem run_eq : ∀ (l : List UInt8) (vs : List Nat), vs.length ≤ 3 → (∀ v ∈ vs, v < 64) →
    run vs.length (number vs) l =
      B64.bytes (l.contains B64.pad) (vs ++ (l.takeWhile (· ≠ B64.pad)).filterMap B64.value) := by
  intro l
  induction l with
  | nil =>
    intro vs h _
    match vs, h with
    | [], _ => simp [run, B64.bytes]
    | [a], _ => simp [run, B64.bytes]
    | [a, b], _ => simp [run, B64.bytes]
    | [a, b, c], _ => simp [run, B64.bytes]
  | cons x l ih =>
    intro vs hl hv
    unfold run
    by_cases hp : x = 61
    · rw [if_pos hp]
      subst hp
      have h1 : (61 :: l : List UInt8).contains B64.pad = true := by simp [B64.pad]
      have h2 : (61 :: l : List UInt8).takeWhile (· ≠ B64.pad) = [] := by simp [B64.pad]
      rw [h1, h2]
      match vs, hl, hv with
      | [], _, _ => simp [B64.bytes]
      | [a], _, _ => simp [B64.bytes]
      | [a, b], _, hv =>
        have := hv a (by simp); have := hv b (by simp)
        have e1 : number [a, b] / 2 ^ 10 % 256 = a * 4 + b / 16 := by simp [number]; omega
        rw [if_pos (show [a, b].length = 2 from rfl), e1]; simp [B64.bytes, byte]
      | [a, b, c], _, hv =>
        have := hv a (by simp); have := hv b (by simp); have := hv c (by simp)
        have e1 : number [a, b, c] / 2 ^ 8 / 2 ^ 8 % 256 = a * 4 + b / 16 := by simp [number]; omega
        have e2 : number [a, b, c] / 2 ^ 8 % 256 = b % 16 * 16 + c / 4 := by simp [number]; omega
        rw [if_neg (by simp), if_pos (show [a, b, c].length = 3 from rfl), e1, e2]; simp [B64.bytes, byte]
    · rw [if_neg hp]
      have h1 : (x :: l).contains B64.pad = l.contains B64.pad := by
        have : ¬ B64.pad = x := fun z => hp z.symm
        simp [this]
      have h2 : (x :: l).takeWhile (· ≠ B64.pad) = x :: l.takeWhile (· ≠ B64.pad) := by
        have : ¬ x = B64.pad := hp
        simp [List.takeWhile_cons, this]
      rw [h1, h2]
      cases hx : B64.value x with
      | none => simp only; rw [List.filterMap_cons_none hx]; exact ih vs hl hv
      | some v =>
        simp only
        rw [List.filterMap_cons_some hx]
        have hv64 := value_lt hx
        by_cases h4 : vs.length + 1 = 4
        · rw [if_pos h4]
          match vs, h4, hv with
          | [a, b, c], _, hv =>
            have := hv a (by simp); have := hv b (by simp); have := hv c (by simp)
            have e := ih [] (by simp) (by simp)
            simp only [List.length_nil, number, List.foldl_nil, List.nil_append] at e
            rw [e]
            simp only [List.cons_append, List.nil_append, B64.bytes, number, byte, List.foldl_cons, List.foldl_nil]
            congr 1
            · congr 1; omega
            · congr 1
              · congr 1; omega
              · congr 1
                congr 1; omega
        · rw [if_neg h4]
          have e := ih (vs ++ [v]) (by simp; omega) (by
            intro w hw
            rcases List.mem_append.1 hw with h | h
            · exact hv w h
            · simp at h; omega)
          rw [List.append_assoc] at e
          rw [show vs ++ v :: List.filterMap B64.value (List.takeWhile (· ≠ B64.pad) l) =
            vs ++ ([v] ++ List.filterMap B64.value (List.takeWhile (· ≠ B64.pad) l)) from rfl, ← e]
          simp [number]

theorem run_decoded (l : List UInt8) : run 0 0 l = B64.decoded l := by
  have := run_eq l [] (by simp) (by simp)
  simpa [number, B64.decoded] using this

/-! ## Decoding an encoding -/

theorem value_char : ∀ v, v < 64 → B64.value (B64.char v) = some v ∧ B64.char v ≠ B64.pad := by
  have : ∀ v : Fin 64, B64.value (B64.char v) = some v.1 ∧ B64.char v ≠ B64.pad := by decide
  intro v h; exact this ⟨v, h⟩

theorem filter_values (t : List UInt8) : ((t.filter B64.significant).takeWhile (· ≠ B64.pad)).filterMap B64.value =
    (t.takeWhile (· ≠ B64.pad)).filterMap B64.value := by
  induction t with
  | nil => rfl
  | cons x l ih =>
    by_cases hx : x = B64.pad
    · subst hx
      simp [List.filter_cons, B64.significant, List.takeWhile_cons]
    · have ht : ∀ m : List UInt8, (x :: m).takeWhile (· ≠ B64.pad) = x :: m.takeWhile (· ≠ B64.pad) := by
        intro m; simp [List.takeWhile_cons, hx]
      rw [ht]
      have h3 : B64.significant x = (B64.value x).isSome := by simp [B64.significant, hx]
      cases hv : B64.value x with
      | none =>
        rw [hv] at h3
        rw [List.filter_cons_of_neg (by simp [h3]), List.filterMap_cons_none hv]
        exact ih
      | some v =>
        rw [hv] at h3
        rw [List.filter_cons_of_pos (by simp [h3]), ht, List.filterMap_cons_some hv,
          List.filterMap_cons_some hv, ih]

/-- The bytes that are not significant have no influence. -/
theorem decoded_filter (t : List UInt8) : B64.decoded (t.filter B64.significant) = B64.decoded t := by
  unfold B64.decoded
  have h2 : ((t.filter B64.significant).takeWhile (· ≠ B64.pad)).filterMap B64.value =
      (t.takeWhile (· ≠ B64.pad)).filterMap B64.value := filter_values t
  have h1 : (t.filter B64.significant).contains B64.pad = t.contains B64.pad := by
    rw [Bool.eq_iff_iff, List.contains_iff_mem, List.contains_iff_mem, List.mem_filter]
    simp [B64.significant]
  rw [h1, h2]

theorem decoded_four {a b c d : Nat} (ha : a < 64) (hb : b < 64) (hc : c < 64) (hd : d < 64) (t : List UInt8) :
    B64.decoded ([B64.char a, B64.char b, B64.char c, B64.char d] ++ t) =
      [UInt8.ofNat (a * 4 + b / 16), UInt8.ofNat (b % 16 * 16 + c / 4), UInt8.ofNat (c % 4 * 64 + d)] ++
        B64.decoded t := by
  obtain ⟨a1, a2⟩ := value_char a ha
  obtain ⟨b1, b2⟩ := value_char b hb
  obtain ⟨c1, c2⟩ := value_char c hc
  obtain ⟨d1, d2⟩ := value_char d hd
  simp [B64.decoded, a1, b1, c1, d1, a2, b2, c2, d2, a2.symm, b2.symm, c2.symm, d2.symm, List.takeWhile_cons,
    B64.bytes]

theorem ofNat_eq (x : UInt8) {n : Nat} (h : n = x.toNat) : UInt8.ofNat n = x := by
  rw [h, UInt8.ofNat_toNat]

theorem decoded_encode (b : List UInt8) : B64.decoded (B64.encode b) = b := by
  induction b using B64.encode.induct with
  | case1 => decide
  | case2 x =>
    have hx := x.toNat_lt
    obtain ⟨a1, a2⟩ := value_char (x.toNat / 4) (by omega)
    obtain ⟨b1, b2⟩ := value_char (x.toNat % 4 * 16) (by omega)
    simp only [B64.encode, B64.decoded]
    simp [List.takeWhile_cons, a1, a2, b1, b2]
    simp only [B64.bytes, if_true]
    congr 1
    apply ofNat_eq; omega
  | case3 x y =>
    have hx := x.toNat_lt
    have hy := y.toNat_lt
    obtain ⟨a1, a2⟩ := value_char (x.toNat / 4) (by omega)
    obtain ⟨b1, b2⟩ := value_char (x.toNat % 4 * 16 + y.toNat / 16) (by omega)
    obtain ⟨c1, c2⟩ := value_char (y.toNat % 16 * 4) (by omega)
    simp only [B64.encode, B64.decoded]
    simp [List.takeWhile_cons, a1, a2, b1, b2, c1, c2]
    simp only [B64.bytes, if_true]
    congr 1
    · apply ofNat_eq; omega
    · congr 1
      apply ofNat_eq; omega
  | case4 x y z l ih =>
    have hx := x.toNat_lt
    have hy := y.toNat_lt
    have hz := z.toNat_lt
    rw [B64.encode, decoded_four (by omega) (by omega) (by omega) (by omega), ih]
    simp only [List.cons_append, List.nil_append]
    congr 1
    · apply ofNat_eq; omega
    · congr 1
      · apply ofNat_eq; omega
      · congr 1
        apply ofNat_eq; omega

/-! ## The static function -/

theorem ofNat_mod {a b : Nat} (h : a % 256 = b % 256) : UInt8.ofNat a = UInt8.ofNat b := by
  apply UInt8.toNat_inj.1
  simpa using h

theorem decodeLoop_eq (padded : Bool) (l d : List UInt8) (h : l.length % 4 = 0) :
    decodeLoop l d = if l.all (fun c => (B64.value c).isSome)
      then some (d ++ B64.bytes padded (l.filterMap B64.value)) else none := by
  induction l, d using decodeLoop.induct with
  | case1 c0 c1 c2 c3 l d hin ih =>
    rw [decodeLoop, if_pos hin, ih (by simp at h; omega)]
    obtain ⟨h0, h1, h2, h3⟩ := hin
    rw [(tables _).1] at h0 h1 h2 h3
    obtain ⟨v0, e0⟩ := Option.isSome_iff_exists.1 h0
    obtain ⟨v1, e1⟩ := Option.isSome_iff_exists.1 h1
    obtain ⟨v2, e2⟩ := Option.isSome_iff_exists.1 h2
    obtain ⟨v3, e3⟩ := Option.isSome_iff_exists.1 h3
    have k0 := (tables c0).2 v0 e0
    have k1 := (tables c1).2 v1 e1
    have k2 := (tables c2).2 v2 e2
    have k3 := (tables c3).2 v3 e3
    rw [k0.1, k1.1, k2.1, k3.1]
    simp only [List.all_cons, e0, e1, e2, e3, Option.isSome_some, Bool.true_and, List.filterMap_cons, B64.bytes]
    have t : three v0 v1 v2 v3 = [UInt8.ofNat (v0 * 4 + v1 / 16), UInt8.ofNat (v1 % 16 * 16 + v2 / 4),
        UInt8.ofNat (v2 % 4 * 64 + v3)] := by
      unfold three byte
      rw [ofNat_mod (show (v1 * 16 + v2 / 4) % 256 = (v1 % 16 * 16 + v2 / 4) % 256 by omega),
        ofNat_mod (show (v2 * 64 + v3) % 256 = (v2 % 4 * 64 + v3) % 256 by omega)]
    rw [t]
    simp
  | case2 c0 c1 c2 c3 l d hin =>
    rw [decodeLoop, if_neg hin]
    simp only [(tables _).1] at hin
    rw [if_neg]
    simp only [List.all_cons, Bool.and_eq_true]
    intro z
    exact hin ⟨z.1, z.2.1, z.2.2.1, z.2.2.2.1⟩
  | case3 l d hl =>
    have : l = [] := by
      match l, hl, h with
      | [], _, _ => rfl
      | [_], _, h => simp at h
      | [_, _], _, h => simp at h
      | [_, _, _], _, h => simp at h
      | c0 :: c1 :: c2 :: c3 :: l, hl, _ => exact absurd rfl (hl c0 c1 c2 c3 l)
    subst this
    simp [decodeLoop, B64.bytes]

theorem aget_nat {α : Type} {l : List α} {i : Nat} (h : i < l.length) : aget l (i : Int) = .ok l[i] := by
  unfold aget
  rw [if_pos (by omega)]
  simp [h]

theorem isSome_inalphabet {c : UInt8} : inalphabet c = true ↔ ∃ v, B64.value c = some v := by
  rw [(tables c).1, Option.isSome_iff_exists]

theorem values_ne_pad {l : List UInt8} (h : l.all (fun c => (B64.value c).isSome)) :
    ∀ x ∈ l, x ≠ B64.pad := by
  intro x hx z
  have := List.all_eq_true.1 h x hx
  rw [z] at this; revert this; decide

/-- The meaning of a text that consists of characters of the alphabet and then padding. -/
theorem decoded_append_pad {l t : List UInt8} (h : l.all (fun c => (B64.value c).isSome)) :
    B64.decoded (l ++ B64.pad :: t) = B64.bytes true (l.filterMap B64.value) := by
  have hp := values_ne_pad h
  unfold B64.decoded
  rw [show (l ++ B64.pad :: t).contains B64.pad = true by simp]
  rw [List.takeWhile_append_of_pos (by simpa using hp)]
  simp

theorem decoded_all {l : List UInt8} (h : l.all (fun c => (B64.value c).isSome)) :
    B64.decoded l = B64.bytes false (l.filterMap B64.value) := by
  have hp := values_ne_pad h
  unfold B64.decoded
  have h1 : l.contains B64.pad = false := by
    rw [Bool.eq_false_iff]; intro z
    rw [List.contains_iff_mem] at z
    exact hp _ z rfl
  have h2 : l.takeWhile (· ≠ B64.pad) = l := by
    have : ∀ m : List UInt8, (∀ x ∈ m, x ≠ B64.pad) → m.takeWhile (· ≠ B64.pad) = m := by
      intro m
      induction m with
      | nil => intro _; rfl
      | cons x m ih =>
        intro hm
        rw [List.takeWhile_cons_of_pos (by simpa using hm x (by simp)), ih fun y hy => hm y (by simp [hy])]
    exact this l hp
  rw [h1, h2]

theorem bytes_append_four (p : Bool) (m : List Nat) : ∀ l : List Nat, l.length % 4 = 0 →
    B64.bytes p (l ++ m) = B64.bytes p l ++ B64.bytes p m
  | [], _ => by simp [B64.bytes]
  | [_], h => by simp at h
  | [_, _], h => by simp at h
  | [_, _, _], h => by simp at h
  | a :: b :: c :: d :: l, h => by
    have := bytes_append_four p m l (by simp at h; omega)
    simp [B64.bytes, this]

theorem filterMap_length {l : List UInt8} (h : l.all (fun c => (B64.value c).isSome)) :
    (l.filterMap B64.value).length = l.length := by
  induction l with
  | nil => rfl
  | cons x l ih =>
    simp only [List.all_cons, Bool.and_eq_true] at h
    obtain ⟨v, hv⟩ := Option.isSome_iff_exists.1 h.1
    simp [List.filterMap_cons, hv, ih h.2]

/-- The text consists of characters of the alphabet, followed by at most two padding characters, and its
length is a multiple of four. -/
def WellFormed (t : List UInt8) : Prop :=
  t.length % 4 = 0 ∧ ∃ body k, t = body ++ List.replicate k B64.pad ∧ k ≤ 2 ∧
    ∀ x ∈ body, (B64.value x).isSome

theorem last_four {t : List UInt8} (h0 : t ≠ []) (h : t.length % 4 = 0) :
    ∃ l a b c d, t = l ++ [a, b, c, d] ∧ l.length % 4 = 0 := by
  have hl : 4 ≤ t.length := by
    have := List.length_pos_iff.2 h0; omega
  have h4 : (t.drop (t.length - 4)).length = 4 := by rw [List.length_drop]; omega
  match hd : t.drop (t.length - 4), h4 with
  | [a, b, c, d], _ =>
    refine ⟨t.take (t.length - 4), a, b, c, d, ?_, ?_⟩
    · rw [← hd, List.take_append_drop]
    · rw [List.length_take]; omega

theorem decode_spec {t : List UInt8} (h0 : t ≠ []) :
    (WellFormed t ∧ decode t = .ok (B64.decoded t)) ∨ (¬ WellFormed t ∧ decode t = .ok []) := by
  unfold decode
  by_cases h4 : t.length % 4 = 0
  · rw [if_neg (by omega)]
    obtain ⟨l, a, b, c, d, rfl, hl⟩ := last_four h0 h4
    have hlen : (l ++ [a, b, c, d]).length = l.length + 4 := by simp
    have g3 : aget (l ++ [a, b, c, d]) (((l ++ [a, b, c, d]).length : Int) - 1) = .ok d := by
      rw [hlen, show ((l.length + 4 : Nat) : Int) - 1 = ((l.length + 3 : Nat) : Int) by omega,
        aget_nat (by omega)]
      simp
    have g2 : aget (l ++ [a, b, c, d]) (((l ++ [a, b, c, d]).length : Int) - 2) = .ok c := by
      rw [hlen, show ((l.length + 4 : Nat) : Int) - 2 = ((l.length + 2 : Nat) : Int) by omega,
        aget_nat (by omega)]
      simp
    have g0 : aget (l ++ [a, b, c, d]) ((l.length : Nat) : Int) = .ok a := by
      rw [aget_nat (by omega)]; simp
    have g1 : aget (l ++ [a, b, c, d]) ((l.length : Nat) + 1 : Int) = .ok b := by
      rw [show ((l.length : Nat) : Int) + 1 = ((l.length + 1 : Nat) : Int) by omega, aget_nat (by omega)]; simp
    have g2' : aget (l ++ [a, b, c, d]) ((l.length : Nat) + 2 : Int) = .ok c := by
      rw [show ((l.length : Nat) : Int) + 2 = ((l.length + 2 : Nat) : Int) by omega, aget_nat (by omega)]; simp
    rw [g3]
    simp only [Res.bind_ok]
    rw [g2]
    simp only [Res.bind_ok]
    by_cases hd : d = 61
    · subst hd
      simp only [if_true, hlen, Nat.add_sub_cancel, g0, g1, g2', Res.bind_ok]
      rw [List.take_left' rfl, decodeLoop_eq true l [] hl]
      by_cases hall : l.all (fun c => (B64.value c).isSome)
      · rw [if_pos hall]
        simp only [List.nil_append]
        have hfl := filterMap_length hall
        by_cases hc : c = 61
        · rw [if_pos hc]
          subst hc
          by_cases hab : inalphabet a = true ∧ inalphabet b = true
          · rw [if_pos hab]
            left
            obtain ⟨va, ea⟩ := isSome_inalphabet.1 hab.1
            obtain ⟨vb, eb⟩ := isSome_inalphabet.1 hab.2
            have hall' : (l ++ [a, b]).all (fun c => (B64.value c).isSome) := by
              rw [List.all_append, hall]; simp [ea, eb]
            refine ⟨⟨h4, l ++ [a, b], 2, by simp [B64.pad], by omega, ?_⟩, ?_⟩
            · exact List.all_eq_true.1 hall'
            · have := decoded_append_pad (t := [61]) hall'
              rw [show l ++ [a, b, 61, 61] = l ++ [a, b] ++ B64.pad :: [61] by simp [B64.pad], this,
                List.filterMap_append, bytes_append_four _ _ _ (by omega)]
              simp [List.filterMap_cons, ea, eb, B64.bytes, (tables a).2 va ea, (tables b).2 vb eb, byte]
          · rw [if_neg hab]
            right
            refine ⟨?_, rfl⟩
            rintro ⟨_, body, k, e, hk, hb⟩
            apply hab
            have h2 : l ++ [a, b, 61, 61] = (l ++ [a, b]) ++ [61, 61] := by simp
            match k, hk with
            | 0, _ =>
              have := hb 61 (by rw [show body = _ from by simpa using e.symm]; simp)
              exact absurd this (by decide)
            | 1, _ =>
              rw [show l ++ [a, b, 61, 61] = (l ++ [a, b, 61]) ++ [61] by simp] at e
              have := (List.append_inj' e rfl).1
              have := hb 61 (by rw [← this]; simp)
              exact absurd this (by decide)
            | 2, _ =>
              rw [h2] at e
              have := (List.append_inj' e rfl).1
              rw [(tables a).1, (tables b).1]
              exact ⟨hb a (by rw [← this]; simp), hb b (by rw [← this]; simp)⟩
        · rw [if_neg hc]
          by_cases habc : inalphabet a = true ∧ inalphabet b = true ∧ inalphabet c = true
          · rw [if_pos habc]
            left
            obtain ⟨va, ea⟩ := isSome_inalphabet.1 habc.1
            obtain ⟨vb, eb⟩ := isSome_inalphabet.1 habc.2.1
            obtain ⟨vc, ec⟩ := isSome_inalphabet.1 habc.2.2
            have hall' : (l ++ [a, b, c]).all (fun c => (B64.value c).isSome) := by
              rw [List.all_append, hall]; simp [ea, eb, ec]
            refine ⟨⟨h4, l ++ [a, b, c], 1, by simp [B64.pad], by omega, ?_⟩, ?_⟩
            · exact List.all_eq_true.1 hall'
            · have := decoded_append_pad (t := []) hall'
              rw [show l ++ [a, b, c, 61] = l ++ [a, b, c] ++ B64.pad :: [] by simp [B64.pad], this,
                List.filterMap_append, bytes_append_four _ _ _ (by omega)]
              simp only [List.filterMap_cons, ea, eb, ec, List.filterMap_nil, B64.bytes, if_true, byte,
                ((tables a).2 va ea).1, ((tables b).2 vb eb).1, ((tables c).2 vc ec).1]
              rw [ofNat_mod (show (vb * 16 + vc / 4) % 256 = (vb % 16 * 16 + vc / 4) % 256 by
                have := value_lt ec; omega)]
          · rw [if_neg habc]
            right
            refine ⟨?_, rfl⟩
            rintro ⟨_, body, k, e, hk, hb⟩
            apply habc
            match k, hk with
            | 0, _ =>
              have := hb 61 (by rw [show body = _ from by simpa using e.symm]; simp)
              exact absurd this (by decide)
            | 1, _ =>
              rw [show l ++ [a, b, c, 61] = (l ++ [a, b, c]) ++ [61] by simp] at e
              have := (List.append_inj' e rfl).1
              rw [(tables a).1, (tables b).1, (tables c).1]
              exact ⟨hb a (by rw [← this]; simp), hb b (by rw [← this]; simp), hb c (by rw [← this]; simp)⟩
            | 2, _ =>
              rw [show l ++ [a, b, c, 61] = (l ++ [a, b]) ++ [c, 61] by simp] at e
              have := (List.append_inj' e rfl).2
              simp [B64.pad] at this
              exact absurd this hc
      · rw [if_neg hall]
        right
        refine ⟨?_, rfl⟩
        rintro ⟨_, body, k, e, hk, hb⟩
        apply hall
        have : l.length ≤ body.length := by
          have := congrArg List.length e
          simp at this; omega
        have hpre : l <+: body := by
          apply List.prefix_of_prefix_length_le (l₃ := body ++ List.replicate k B64.pad) _ (List.prefix_append _ _) this
          rw [← e]; exact List.prefix_append _ _
        exact List.all_eq_true.2 fun x hx => hb x (hpre.subset hx)
    · simp only [if_neg hd]
      rw [List.take_length, decodeLoop_eq false _ [] h4]
      by_cases hall : (l ++ [a, b, c, d]).all (fun c => (B64.value c).isSome)
      · rw [if_pos hall]
        simp only [List.nil_append]
        have hc : c ≠ 61 := values_ne_pad hall c (by simp)
        rw [if_neg hc]
        exact Or.inl ⟨⟨h4, _, 0, by simp, by omega, List.all_eq_true.1 hall⟩, by rw [decoded_all hall]⟩
      · rw [if_neg hall]
        right
        refine ⟨?_, rfl⟩
        rintro ⟨_, body, k, e, hk, hb⟩
        apply hall
        match k, hk with
        | 0, _ => rw [e]; simpa using hb
        | 1, _ =>
          rw [show l ++ [a, b, c, d] = (l ++ [a, b, c]) ++ [d] by simp] at e
          have := (List.append_inj' e rfl).2
          simp [B64.pad] at this
          exact absurd this hd
        | 2, _ =>
          rw [show l ++ [a, b, c, d] = (l ++ [a, b]) ++ [c, d] by simp] at e
          have := (List.append_inj' e rfl).2
          simp [B64.pad] at this
          exact absurd this.2 hd
  · rw [if_pos h4]
    exact Or.inr ⟨fun z => h4 z.1, rfl⟩

theorem isSome_char {v : Nat} (h : v < 64) : (B64.value (B64.char v)).isSome = true := by
  rw [(value_char v h).1]; rfl

theorem encode_wellFormed (b : List UInt8) : WellFormed (B64.encode b) := by
  induction b using B64.encode.induct with
  | case1 => exact ⟨rfl, [], 0, by simp [B64.encode], by omega, by simp⟩
  | case2 x =>
    have hx := x.toNat_lt
    refine ⟨by simp [B64.encode], [B64.char (x.toNat / 4), B64.char (x.toNat % 4 * 16)], 2, by simp [B64.encode, List.replicate], by omega, ?_⟩
    intro y hy
    simp only [List.mem_cons, List.not_mem_nil, or_false] at hy
    rcases hy with rfl | rfl <;> exact isSome_char (by omega)
  | case3 x y =>
    have hx := x.toNat_lt
    have hy := y.toNat_lt
    refine ⟨by simp [B64.encode], [B64.char (x.toNat / 4), B64.char (x.toNat % 4 * 16 + y.toNat / 16),
      B64.char (y.toNat % 16 * 4)], 1, by simp [B64.encode, List.replicate], by omega, ?_⟩
    intro z hz
    simp only [List.mem_cons, List.not_mem_nil, or_false] at hz
    rcases hz with rfl | rfl | rfl <;> exact isSome_char (by omega)
  | case4 x y z l ih =>
    have hx := x.toNat_lt
    have hy := y.toNat_lt
    have hz := z.toNat_lt
    obtain ⟨h1, body, k, e, hk, hb⟩ := ih
    refine ⟨by rw [B64.encode]; simp; omega, [B64.char (x.toNat / 4), B64.char (x.toNat % 4 * 16 + y.toNat / 16),
      B64.char (y.toNat % 16 * 4 + z.toNat / 64), B64.char (z.toNat % 64)] ++ body, k, ?_, hk, ?_⟩
    · rw [B64.encode, e, List.append_assoc]
    · intro w hw
      rcases List.mem_append.1 hw with h | h
      · simp only [List.mem_cons, List.not_mem_nil, or_false] at h
        rcases h with rfl | rfl | rfl | rfl <;> exact isSome_char (by omega)
      · exact hb w h

end Base64
end Strigi
