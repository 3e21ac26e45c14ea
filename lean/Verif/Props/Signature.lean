import Verif.Model.Signature
import Verif.TraceSpec
import Verif.Props.StringStream

/-!
# Property C57: `SignatureInputStream` is transparent
-/

namespace Strigi.Props

variable {σ : Type}

/-- **C57**: whatever the input is and whatever calls are made, the user sees the same as on the input
itself. -/
theorem C57_transparent (P : StreamOps σ UInt8) (input : σ) (n : Int) (l : List Op) :
    trace (SignatureStream.ops P) (SignatureStream.new P input n) l = trace P input l := by
  have key : ∀ (l : List Op) (s : SignatureStream σ),
      trace (SignatureStream.ops P) s l = trace P s.input l := by
    intro l
    induction l with
    | nil => intro s; rfl
    | cons op l ih =>
      intro s
      cases op with
      | read mn mx =>
        simp only [trace, Op.call, SignatureStream.ops, SignatureStream.read]
        cases h : P.read s.input mn mx with
        | ok a =>
          obtain ⟨i, r, d⟩ := a
          simp only [Res.bind_ok]
          exact congrArg _ (ih _)
        | fault f => simp only [Res.bind_fault]
        | diverge => simp only [Res.bind_diverge]
      | skip n =>
        simp only [trace, Op.call, SignatureStream.ops, SignatureStream.skip]
        cases h : P.skip s.input n with
        | ok a =>
          obtain ⟨i, r⟩ := a
          simp only [Res.bind_ok]
          exact congrArg _ (ih _)
        | fault f => simp only [Res.bind_fault]
        | diverge => simp only [Res.bind_diverge]
      | reset q =>
        simp only [trace, Op.call, SignatureStream.ops, SignatureStream.reset]
        cases h : P.reset s.input q with
        | ok a =>
          obtain ⟨i, r⟩ := a
          simp only [Res.bind_ok]
          exact congrArg _ (ih _)
        | fault f => simp only [Res.bind_fault]
        | diverge => simp only [Res.bind_diverge]
  exact key l _

/-- **C57**: so over a healthy input at position 0 it is a stream over the same content. -/
theorem C57_isStream {P : StreamOps σ UInt8} {c : List UInt8} {F : Failure} {soft : Prop} {input : σ}
    (hP : IsStream P c F soft input) (h0 : P.position input = 0) (n : Int) :
    IsStream (SignatureStream.ops P) c F soft (SignatureStream.new P input n) := by
  have C := Contract.of_behaves P c F soft
  have S := SoftReset.of_behaves P c F soft
  have C' : Contract (SignatureStream.ops P) c F (fun s lo hi => (∀ l, Behaves P c F soft s.input lo hi l) ∧
      s.pos = P.position s.input ∧ s.size = P.size s.input ∧ (s.status = P.status s.input ∨ s.status = .ok)) := by
    constructor
    · rintro s lo hi ⟨h, h1, _⟩
      simp only [SignatureStream.ops]
      rw [h1]; exact C.range h
    · rintro s lo hi ⟨h, h1, _, h3⟩
      simp only [SignatureStream.ops]
      rw [h1]
      rcases h3 with h3 | h3
      · rw [h3]; exact C.status h
      · rw [h3]; exact ⟨by decide, by intro z; cases z⟩
    · rintro s lo hi lo' hi' ⟨h, h1, h2⟩ a b d e
      simp only [SignatureStream.ops] at b d
      rw [h1] at b d
      exact ⟨C.narrow h a b d e, h1, h2⟩
    · rintro s lo hi ⟨h, _, h2, _⟩
      simp only [SignatureStream.ops]
      rw [h2]; exact C.size h
    · rintro s lo hi ⟨h, h1, _⟩ mn mx a b
      obtain ⟨i, n, d, e, r, k⟩ := C.read h a b
      refine ⟨s.mirror P i, n, d, ?_, ?_, ?_⟩
      · simp only [SignatureStream.ops, SignatureStream.read]; rw [e]; rfl
      · simp only [SignatureStream.ops, SignatureStream.mirror]; rw [h1]; exact r
      · simp only [SignatureStream.ops]; rw [h1]
        exact fun z => ⟨k z, rfl, rfl, Or.inl rfl⟩
    · rintro s lo hi ⟨h, h1, _⟩ m a b
      obtain ⟨i, n, e, r, k⟩ := C.skip h a b
      refine ⟨s.mirror P i, n, ?_, ?_, ?_⟩
      · simp only [SignatureStream.ops, SignatureStream.skip]; rw [e]; rfl
      · simp only [SignatureStream.ops, SignatureStream.mirror]; rw [h1]; exact r
      · exact fun z => ⟨k z, rfl, rfl, Or.inl rfl⟩
    · rintro s lo hi ⟨h, h1, _⟩ q a b
      obtain ⟨i, e, p, st, k1, k2⟩ := C.reset h a b
      refine ⟨s.mirror P i, ?_, p, st, ?_, ?_⟩
      · simp only [SignatureStream.ops, SignatureStream.reset]; rw [e]; rfl
      · simp only [SignatureStream.ops]; rw [h1]
        exact fun z => ⟨k1 z, rfl, rfl, Or.inl rfl⟩
      · exact ⟨k2, rfl, rfl, Or.inl rfl⟩
  refine C'.isStream (fun hsoft => ⟨?_⟩) ?_
  · rintro s lo hi ⟨h, h1, _⟩ q a b
    obtain ⟨i, r, e, p, o, st, k⟩ := (S hsoft).reset h a b
    refine ⟨s.mirror P i, r, ?_, p, ?_, st, ⟨k, rfl, rfl, Or.inl rfl⟩⟩
    · simp only [SignatureStream.ops, SignatureStream.reset]; rw [e]; rfl
    · simp only [SignatureStream.ops]; rw [h1]; exact o
  · refine ⟨fun l => ?_, h0.symm, rfl, Or.inr rfl⟩
    have := hP l
    rw [h0] at this
    exact this

/-- **C69**: but a new `SignatureInputStream` says it is at position 0, wherever its input is; the first read
takes its position from 0 to a position behind what was read of the input. -/
theorem C69_position {P : StreamOps σ UInt8} {c : List UInt8} {F : Failure} {soft : Prop} {input : σ}
    (hP : IsStream P c F soft input) (n : Int) {mn mx : Int} (h1 : 1 ≤ mn) (h2 : mx = 0 ∨ mn ≤ mx) :
    (SignatureStream.ops P).position (SignatureStream.new P input n) = 0 ∧
    ∃ s k d, (SignatureStream.ops P).read (SignatureStream.new P input n) mn mx = .ok (s, k, d) ∧
      (0 < k → (SignatureStream.ops P).position s = P.position input + k) := by
  refine ⟨rfl, ?_⟩
  obtain ⟨i, k, d, e, r, _⟩ := (Contract.of_behaves P c F soft).read hP h1 h2
  refine ⟨(SignatureStream.new P input n).mirror P i, k, d, ?_, ?_⟩
  · simp only [SignatureStream.ops, SignatureStream.read, SignatureStream.new]; rw [e]; rfl
  · intro hk
    cases r with
    | data _ _ _ adv _ _ _ => exact adv
    | ended z _ _ _ _ => omega
    | failed _ z _ => omega

/-- A user who reads the second half of a buffer through a `SignatureInputStream` sees the position jump from
0 to 5 while reading 2 bytes. -/
example : (do
    let (i, _, _) ← StringStream.ops.read (StringStream.new ([1, 2, 3, 4, 5, 6] : List UInt8)) 3 3
    let s := SignatureStream.new StringStream.ops i 100
    let (s', k, d) ← (SignatureStream.ops StringStream.ops).read s 2 2
    .ok (s.pos, k, d, s'.pos)) = .ok (0, 2, [4, 5], 5) := by decide

example : IsStream (SignatureStream.ops StringStream.ops) [1, 2, 3] .never True
    (SignatureStream.new StringStream.ops (StringStream.new ([1, 2, 3] : List UInt8)) 100) :=
  C57_isStream (C01_isStream _) rfl 100

end Strigi.Props
