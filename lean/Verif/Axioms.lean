import Verif.Props.AllRoots
import Verif.Props.ApiLaws
import Verif.Props.ArrayPoly
import Verif.Props.Assign
import Verif.Props.AssignMore
import Verif.Props.Calc
import Verif.Props.CalculusLaws
import Verif.Props.CalculusPanics
import Verif.Props.Checked
import Verif.Props.CheckedAgree
import Verif.Props.Compose
import Verif.Props.Congruence
import Verif.Props.Convert
import Verif.Props.Cost
import Verif.Props.Cubic
import Verif.Props.DegreeLaws
import Verif.Props.DenseBasic
import Verif.Props.DenseCalc
import Verif.Props.DenseDiv
import Verif.Props.DenseMul
import Verif.Props.DenseShift
import Verif.Props.Display
import Verif.Props.DisplayMin
import Verif.Props.DivisionLaws
import Verif.Props.Euclid
import Verif.Props.EvalExact
import Verif.Props.Exact
import Verif.Props.Expr
import Verif.Props.FindRoots
import Verif.Props.Fixed
import Verif.Props.FixedHistory
import Verif.Props.FloatArith
import Verif.Props.FloatBisect
import Verif.Props.FloatBounds
import Verif.Props.FloatBuild
import Verif.Props.FloatCertify
import Verif.Props.FloatCubic
import Verif.Props.FloatDiv
import Verif.Props.FloatDivAny
import Verif.Props.FloatDivDrop
import Verif.Props.FloatDivTerm
import Verif.Props.FloatEval
import Verif.Props.FloatExact
import Verif.Props.FloatExpr
import Verif.Props.FloatFactors
import Verif.Props.FloatFindRoots
import Verif.Props.FloatFixed
import Verif.Props.FloatGrid
import Verif.Props.FloatHistory
import Verif.Props.FloatIeee
import Verif.Props.FloatIntegral
import Verif.Props.FloatLaws
import Verif.Props.FloatOrder
import Verif.Props.FloatPow
import Verif.Props.FloatPowi
import Verif.Props.FloatRepaired
import Verif.Props.FloatRootSymmetry
import Verif.Props.FloatRoots
import Verif.Props.FloatScale
import Verif.Props.FloatShape
import Verif.Props.FloatSparse
import Verif.Props.FloatSparseDiv
import Verif.Props.FloatSparseDrop
import Verif.Props.FloatText
import Verif.Props.History
import Verif.Props.IntDivStop
import Verif.Props.IntegerRoots
import Verif.Props.Interchange
import Verif.Props.Laws
import Verif.Props.Machine
import Verif.Props.MachineBuild
import Verif.Props.MachineDiv
import Verif.Props.MachineFixed
import Verif.Props.MachineHistory
import Verif.Props.MachineLoops
import Verif.Props.MachinePow
import Verif.Props.MachinePowExact
import Verif.Props.MachineRoots
import Verif.Props.MachineScalar
import Verif.Props.MachineSink
import Verif.Props.MachineSparse
import Verif.Props.MachineText
import Verif.Props.MachineWrap
import Verif.Props.MachineWrapDiv
import Verif.Props.MachineWrapDivExact
import Verif.Props.Modular
import Verif.Props.Mutation
import Verif.Props.Newton
import Verif.Props.Param
import Verif.Props.ParamFixed
import Verif.Props.Parse
import Verif.Props.ParseErrors
import Verif.Props.ParseLaws
import Verif.Props.Powers
import Verif.Props.Pseudo
import Verif.Props.PseudoMachine
import Verif.Props.RationalRoots
import Verif.Props.Repaired
import Verif.Props.Resultant
import Verif.Props.RoomHistory
import Verif.Props.RootLaws
import Verif.Props.RootNumber
import Verif.Props.RootSymmetry
import Verif.Props.Roots
import Verif.Props.SparseBasic
import Verif.Props.SparseDiv
import Verif.Props.Sqrt
import Verif.Props.Stored
import Verif.Props.StoredHistory
import Verif.Props.StoredParse
import Verif.Props.Sturm
import Verif.Props.Taylor
import Verif.Props.Unsigned
import Verif.Props.Upcast
import Verif.Props.Usize
import Verif.Props.Values

/-!
# Axioms of the property theorems

Generated from MANIFEST.json: one `#print axioms` per theorem.  The build log shows that each of
them depends on at most `propext`, `Classical.choice`, `Quot.sound`.
-/

#print axioms Rustnomial.C01_new_shape
#print axioms Rustnomial.C01_trim_idempotent
#print axioms Rustnomial.C01_new_same_polynomial
#print axioms Rustnomial.C01_canonical
#print axioms Rustnomial.C01_sparse_trim
#print axioms Rustnomial.C02_dense_degree
#print axioms Rustnomial.C02_dense_is_zero
#print axioms Rustnomial.C02_monomial_degree
#print axioms Rustnomial.C02_binomial_degree
#print axioms Rustnomial.C02_trinomial_degree
#print axioms Rustnomial.C02_fixed_is_zero
#print axioms Rustnomial.C02_fixed_zero
#print axioms Rustnomial.C02_sparse_degree
#print axioms Rustnomial.C02_sparse_is_zero
#print axioms Rustnomial.C02_sparse_zero
#print axioms Rustnomial.C02_dense_zero
#print axioms Rustnomial.C03_dense_terms
#print axioms Rustnomial.C03_dense_terms_sum
#print axioms Rustnomial.C03_monomial_terms
#print axioms Rustnomial.C03_binomial_terms
#print axioms Rustnomial.C03_trinomial_terms
#print axioms Rustnomial.C03_sparse_terms
#print axioms Rustnomial.C03_sparse_terms_sum
#print axioms Rustnomial.C04_dense_term
#print axioms Rustnomial.C04_monomial_term
#print axioms Rustnomial.C04_binomial_term
#print axioms Rustnomial.C04_trinomial_term
#print axioms Rustnomial.C04_sparse_term
#print axioms Rustnomial.C05_dense_eq
#print axioms Rustnomial.C05_dense_equivalence
#print axioms Rustnomial.C05_monomial_eq
#print axioms Rustnomial.C05_binomial_eq
#print axioms Rustnomial.C05_trinomial_eq
#print axioms Rustnomial.C05_fixed_equivalence
#print axioms Rustnomial.C05_sparse_eq
#print axioms Rustnomial.C05_sparse_equivalence
#print axioms Rustnomial.C06_dense_eval
#print axioms Rustnomial.C07_binomial_eval
#print axioms Rustnomial.C07_trinomial_eval
#print axioms Rustnomial.C07_monomial_eval_partial
#print axioms Rustnomial.C07_monomial_eval_false
#print axioms Rustnomial.C07_sparse_eval_partial
#print axioms Rustnomial.C07_sparse_eval_false
#print axioms Rustnomial.C08_dense_add
#print axioms Rustnomial.C08_dense_add_assign
#print axioms Rustnomial.C09_dense_sub
#print axioms Rustnomial.C09_dense_sub_ref
#print axioms Rustnomial.C09_dense_sub_spellings
#print axioms Rustnomial.C10_sparse_neg_laws
#print axioms Rustnomial.C10_dense_neg
#print axioms Rustnomial.C10_dense_add_neg
#print axioms Rustnomial.C10_monomial_neg
#print axioms Rustnomial.C10_binomial_neg
#print axioms Rustnomial.C10_trinomial_neg
#print axioms Rustnomial.C10_sparse_neg
#print axioms Rustnomial.C11_dense_mul_in_place_partial
#print axioms Rustnomial.C11_dense_mul_partial
#print axioms Rustnomial.C11_dense_mul_panics_iff
#print axioms Rustnomial.C11_dense_mul_zero_zero_false
#print axioms Rustnomial.C12_dense_pow_sound
#print axioms Rustnomial.C12_dense_pow_partial
#print axioms Rustnomial.C12_dense_pow_zero_false
#print axioms Rustnomial.C12_dense_pow_terminates
#print axioms Rustnomial.C13_dense_div_assign_scalar_int
#print axioms Rustnomial.C13_dense_div_mul_scalar
#print axioms Rustnomial.C13_sparse_div_mul_scalar
#print axioms Rustnomial.C13_fixed_div_mul_scalar
#print axioms Rustnomial.C13_div_scalar_zero_iff
#print axioms Rustnomial.C13_fixed_mul_assign_scalar
#print axioms Rustnomial.C13_fixed_div_assign_scalar
#print axioms Rustnomial.C13_fixed_div_assign_scalar_int
#print axioms Rustnomial.C13_dense_mul_assign_scalar
#print axioms Rustnomial.C13_dense_mul_scalar
#print axioms Rustnomial.C13_dense_div_scalar
#print axioms Rustnomial.C13_dense_div_scalar_int
#print axioms Rustnomial.C13_dense_div_scalar_zero
#print axioms Rustnomial.C13_fixed_mul_scalar
#print axioms Rustnomial.C13_fixed_div_scalar
#print axioms Rustnomial.C13_fixed_div_scalar_int
#print axioms Rustnomial.C13_sparse_mul_scalar
#print axioms Rustnomial.C13_sparse_div_scalar
#print axioms Rustnomial.C13_sparse_div_scalar_int
#print axioms Rustnomial.C14_dense_shift_assign_partial
#print axioms Rustnomial.C14_dense_shl
#print axioms Rustnomial.C14_dense_shr_partial
#print axioms Rustnomial.C14_dense_shr_trimmed
#print axioms Rustnomial.C14_dense_shr_panics_iff
#print axioms Rustnomial.C14_dense_shift_false
#print axioms Rustnomial.C15_monomial_shift_assign_partial
#print axioms Rustnomial.C15_monomial_shift_assign_false
#print axioms Rustnomial.C15_sparse_shift_assign_partial
#print axioms Rustnomial.C15_monomial_shift_partial
#print axioms Rustnomial.C15_monomial_shift_false
#print axioms Rustnomial.C15_binomial_shr
#print axioms Rustnomial.C15_trinomial_shr
#print axioms Rustnomial.C15_sparse_shift_partial
#print axioms Rustnomial.C15_sparse_shift_false
#print axioms Rustnomial.C16_dense_derivative_panics_iff
#print axioms Rustnomial.C16_dense_derivative
#print axioms Rustnomial.C16_dense_derivative_documented_panic_false
#print axioms Rustnomial.C17_trinomial_derivative_panics_iff
#print axioms Rustnomial.C17_monomial_derivative
#print axioms Rustnomial.C17_binomial_derivative
#print axioms Rustnomial.C17_trinomial_derivative
#print axioms Rustnomial.C17_sparse_derivative
#print axioms Rustnomial.C18_monomial_integral_panics_iff
#print axioms Rustnomial.C18_binomial_integral_panics_iff
#print axioms Rustnomial.C18_trinomial_integral_panics_iff
#print axioms Rustnomial.C18_dense_integral_panics_iff
#print axioms Rustnomial.C18_sparse_integral_panics_iff
#print axioms Rustnomial.C18_dense_integral
#print axioms Rustnomial.C18_dense_derivative_integral
#print axioms Rustnomial.C18_dense_integral_int
#print axioms Rustnomial.C18_dense_integral_integers_false
#print axioms Rustnomial.C18_monomial_integral
#print axioms Rustnomial.C18_binomial_integral
#print axioms Rustnomial.C18_trinomial_integral
#print axioms Rustnomial.C18_sparse_integral
#print axioms Rustnomial.C18_sparse_derivative_integral
#print axioms Rustnomial.C18_sparse_integral_int
#print axioms Rustnomial.C19_sparse_integral_false
#print axioms Rustnomial.C19_integral_eval
#print axioms Rustnomial.C19_replace_c
#print axioms Rustnomial.C19_dense_integral
#print axioms Rustnomial.C19_sparse_integral_partial
#print axioms Rustnomial.C20_dense_div_mod
#print axioms Rustnomial.C20_dense_div_mod_unique
#print axioms Rustnomial.C20_dense_floor_div
#print axioms Rustnomial.C21_dense_div_mod_int_outcome
#print axioms Rustnomial.C21_dense_div_mod_int_partial
#print axioms Rustnomial.C21_dense_div_mod_int_diverges
#print axioms Rustnomial.C21_dense_div_mod_int_false
#print axioms Rustnomial.C22_dense_rem_partial
#print axioms Rustnomial.C22_dense_rem_diverges
#print axioms Rustnomial.C22_dense_rem_false
#print axioms Rustnomial.C23_dense_rem_assign_agrees
#print axioms Rustnomial.C23_dense_rem_assign
#print axioms Rustnomial.C23_dense_rem_assign_int
#print axioms Rustnomial.C24_dense_zero_divisor
#print axioms Rustnomial.C24_dense_nonzero_divisor
#print axioms Rustnomial.C24_sparse_zero_divisor
#print axioms Rustnomial.C24_sparse_nonzero_divisor
#print axioms Rustnomial.C25_sparse_sub_assign
#print axioms Rustnomial.C25_sparse_add
#print axioms Rustnomial.C25_sparse_sub
#print axioms Rustnomial.C25_sparse_sub_dense
#print axioms Rustnomial.C26_sparse_mul_in_place
#print axioms Rustnomial.C26_sparse_mul
#print axioms Rustnomial.C26_sparse_pow
#print axioms Rustnomial.C27_sparse_rem_assign_partial
#print axioms Rustnomial.C27_sparse_div_mod_small_partial
#print axioms Rustnomial.C27_sparse_div_mod_diverges
#print axioms Rustnomial.C27_sparse_div_mod_false
#print axioms Rustnomial.C27_sparse_div_mod_equal_partial
#print axioms Rustnomial.C28_div_scalar
#print axioms Rustnomial.C28_div_scalar_int
#print axioms Rustnomial.C28_div_scalar_zero_false
#print axioms Rustnomial.C28_from_vec
#print axioms Rustnomial.C28_queries
#print axioms Rustnomial.C28_eval_partial
#print axioms Rustnomial.C28_arith_partial
#print axioms Rustnomial.C28_shift_partial
#print axioms Rustnomial.C28_derivative_partial
#print axioms Rustnomial.C28_derivative_total
#print axioms Rustnomial.C28_false
#print axioms Rustnomial.C28_sparse_from_vec
#print axioms Rustnomial.C29_dense
#print axioms Rustnomial.C29_sparse
#print axioms Rustnomial.C29_monomial
#print axioms Rustnomial.C29_binomial
#print axioms Rustnomial.C29_trinomial
#print axioms Rustnomial.C29_array
#print axioms Rustnomial.C30_dense_partial
#print axioms Rustnomial.C30_dense_stored
#print axioms Rustnomial.C30_dense_false
#print axioms Rustnomial.C30_sparse_partial
#print axioms Rustnomial.C30_sparse_stored
#print axioms Rustnomial.C30_sparse_false
#print axioms Rustnomial.C30_fixed_false
#print axioms Rustnomial.C30_fixed_never_reported
#print axioms Rustnomial.C30_exact
#print axioms Rustnomial.C31_sparse_add_term
#print axioms Rustnomial.C31_sparse_from_terms
#print axioms Rustnomial.C31_sparse_from_terms_perm
#print axioms Rustnomial.C31_dense_add_term
#print axioms Rustnomial.C31_dense_from_terms
#print axioms Rustnomial.C31_dense_from_terms_perm
#print axioms Rustnomial.C32_add_poly
#print axioms Rustnomial.C32_sub_poly
#print axioms Rustnomial.C32_mul_poly_vec
#print axioms Rustnomial.C32_dense_sink
#print axioms Rustnomial.C32_sparse_sink
#print axioms Rustnomial.C33_poly_add
#print axioms Rustnomial.C33_poly_sub_partial
#print axioms Rustnomial.C33_sink_errors
#print axioms Rustnomial.C33_poly_sub_unsigned_false
#print axioms Rustnomial.C34_tokenizer
#print axioms Rustnomial.C34_slice
#print axioms Rustnomial.C34_contiguous
#print axioms Rustnomial.C34_unique
#print axioms Rustnomial.C35_separators
#print axioms Rustnomial.C35_texts
#print axioms Rustnomial.C35_canonical
#print axioms Rustnomial.C36_accept_iff
#print axioms Rustnomial.C36_rejects
#print axioms Rustnomial.C36_errors_sound
#print axioms Rustnomial.C36_messages
#print axioms Rustnomial.C36_int_rejects
#print axioms Rustnomial.C36_false
#print axioms Rustnomial.C37_dense_partial
#print axioms Rustnomial.C37_sparse_partial
#print axioms Rustnomial.C37_monomial
#print axioms Rustnomial.C37_binomial_partial
#print axioms Rustnomial.C37_trinomial_partial
#print axioms Rustnomial.C37_false
#print axioms Rustnomial.C37_min_panics
#print axioms Rustnomial.C37_dense_unprintable
#print axioms Rustnomial.C37_sparse_unprintable
#print axioms Rustnomial.C37_binomial_unprintable
#print axioms Rustnomial.C37_trinomial_unprintable
#print axioms Rustnomial.C38_canonical
#print axioms Rustnomial.C38_zero
#print axioms Rustnomial.C38_integral
#print axioms Rustnomial.C38_injective
#print axioms Rustnomial.C39_total
#print axioms Rustnomial.C39_empty
#print axioms Rustnomial.C39_sound
#print axioms Rustnomial.C39_sum
#print axioms Rustnomial.C39_first_error
#print axioms Rustnomial.C39_order
#print axioms Rustnomial.C39_legal_chars
#print axioms Rustnomial.C40_unsigned
#print axioms Rustnomial.C40_signed
#print axioms Rustnomial.C40_signed_min
#print axioms Rustnomial.C41_int
#print axioms Rustnomial.C41_int_continuous
#print axioms Rustnomial.C41_cont_f32
#print axioms Rustnomial.C41_cont_f64_partial
#print axioms Rustnomial.C41_cont_f64_false
#print axioms Rustnomial.C41_exact_float_partial
#print axioms Rustnomial.C41_exact_float_false
#print axioms Rustnomial.C42_cast_exact
#print axioms Rustnomial.C42_cast_compose
#print axioms Rustnomial.C42_table_complete
#print axioms Rustnomial.C42_dense
#print axioms Rustnomial.C42_sparse
#print axioms Rustnomial.C42_fixed
#print axioms Rustnomial.C43_real_roots
#print axioms Rustnomial.C43_complex_roots
#print axioms Rustnomial.C43_int_exact
#print axioms Rustnomial.C43_int_truncates
#print axioms Rustnomial.C43_int_zero_leading
#print axioms Rustnomial.C44_order_partial
#print axioms Rustnomial.C44_false
#print axioms Rustnomial.C45_real_factors
#print axioms Rustnomial.C45_complex_factors_partial
#print axioms Rustnomial.C45_complex_factors_iff
#print axioms Rustnomial.C45_false
#print axioms Rustnomial.C45_array_same
#print axioms Rustnomial.C46_cubic_partial
#print axioms Rustnomial.C46_false
#print axioms Rustnomial.C47_constant
#print axioms Rustnomial.C47_monomial
#print axioms Rustnomial.C47_monomial_multiplicity
#print axioms Rustnomial.C47_linear
#print axioms Rustnomial.C47_quadratic
#print axioms Rustnomial.C47_cubic_partial
#print axioms Rustnomial.C47_cubic_false
#print axioms Rustnomial.C47_total
#print axioms Rustnomial.C47_infinite_iff
#print axioms Rustnomial.C48_roots
#print axioms Rustnomial.C48_roots_sparse
#print axioms Rustnomial.C48_total
#print axioms Rustnomial.C49_binomial_root
#print axioms Rustnomial.C49_array_root
#print axioms Rustnomial.C49_binomial_root_int
#print axioms Rustnomial.C49_monomial_root
#print axioms Rustnomial.C50_monomial_mul_in_place
#print axioms Rustnomial.C50_monomial_mul
#print axioms Rustnomial.C50_monomial_from_scalar
#print axioms Rustnomial.C50_monomial_pow_partial
#print axioms Rustnomial.C50_monomial_pow_false
#print axioms Rustnomial.C51_in_place
#print axioms Rustnomial.C51_binomial_add_sub
#print axioms Rustnomial.C51_trinomial_add_sub
#print axioms Rustnomial.C52_array_observers
#print axioms Rustnomial.C52_array_try_terms
#print axioms Rustnomial.C52_array_eq
#print axioms Rustnomial.C52_array_derivative
#print axioms Rustnomial.C52_array_integral
#print axioms Rustnomial.C52_array_terms_partial
#print axioms Rustnomial.C52_array_terms_false_one
#print axioms Rustnomial.C52_array_terms_false_panic
#print axioms Rustnomial.C52_array_integral_panics_iff
#print axioms Rustnomial.C53_dense_history_partial
#print axioms Rustnomial.C53_sparse_history_partial
#print axioms Rustnomial.C53_dense_representation
#print axioms Rustnomial.C53_dense_sparse_partial
#print axioms Rustnomial.C54_dense_queries
#print axioms Rustnomial.C54_dense_arith
#print axioms Rustnomial.C54_dense_pow
#print axioms Rustnomial.C54_dense_calculus
#print axioms Rustnomial.C54_dense_div_scalar_partial
#print axioms Rustnomial.C54_dense_shift_assign
#print axioms Rustnomial.C54_dense_shift_partial
#print axioms Rustnomial.C54_dense_div
#print axioms Rustnomial.C54_sparse_queries
#print axioms Rustnomial.C54_sparse_arith
#print axioms Rustnomial.C54_sparse_derivative
#print axioms Rustnomial.C54_sparse_div_scalar_partial
#print axioms Rustnomial.C54_sparse_div
#print axioms Rustnomial.C54_sparse_integral_partial
#print axioms Rustnomial.C54_false
#print axioms Rustnomial.C55_dense_add_group
#print axioms Rustnomial.C55_dense_mul_laws_partial
#print axioms Rustnomial.C55_dense_mul_laws_return_partial
#print axioms Rustnomial.C55_dense_false
#print axioms Rustnomial.C55_dense_eval_hom
#print axioms Rustnomial.C55_sparse_ring
#print axioms Rustnomial.C55_sparse_eval_hom_partial
#print axioms Rustnomial.C56_exact
#print axioms Rustnomial.C56_neg
#print axioms Rustnomial.C56_add
#print axioms Rustnomial.C56_sub
#print axioms Rustnomial.C56_mul_scalar
#print axioms Rustnomial.C56_mul
#print axioms Rustnomial.C56_mul_zero_zero
#print axioms Rustnomial.C56_mul_unsigned
#print axioms Rustnomial.C56_eval
#print axioms Rustnomial.C56_eval_unsigned
#print axioms Rustnomial.C56_derivative
#print axioms Rustnomial.C57_linear
#print axioms Rustnomial.C57_mul
#print axioms Rustnomial.C57_eval
#print axioms Rustnomial.C58_dense_mul_outcome
#print axioms Rustnomial.C58_dense_pow_outcome
#print axioms Rustnomial.C59_dense_division_outcome
#print axioms Rustnomial.C60_int_division_outcome
#print axioms Rustnomial.C61_sparse_division_outcome
#print axioms Rustnomial.C62_dense_shl_outcome
#print axioms Rustnomial.C62_dense_shr_outcome
#print axioms Rustnomial.C62_sparse_shift_outcome
#print axioms Rustnomial.C62_monomial_shift_outcome
#print axioms Rustnomial.C63_monomial_eval_right_iff
#print axioms Rustnomial.C63_monomial_eval_float
#print axioms Rustnomial.C63_monomial_pow_right_iff
#print axioms Rustnomial.C63_eval_exact
#print axioms Rustnomial.C63_monomial_pow_exact
#print axioms Rustnomial.C64_quadratic_order
#print axioms Rustnomial.C64_cubic_root_iff
#print axioms Rustnomial.Fl.C65_closed
#print axioms Rustnomial.Fl.C65_nearest
#print axioms Rustnomial.Fl.C65_ties_even
#print axioms Rustnomial.Fl.C65_of_nat
#print axioms Rustnomial.Fl.C65_exact
#print axioms Rustnomial.Fl.C65_no_overflow
#print axioms Rustnomial.Fl.C66_eval_error
#print axioms Rustnomial.Fl.C66_eval_exact
#print axioms Rustnomial.Fl.C67_add
#print axioms Rustnomial.Fl.C67_add_comm
#print axioms Rustnomial.Fl.C67_sub
#print axioms Rustnomial.Fl.C67_neg
#print axioms Rustnomial.Fl.C67_mul_scalar
#print axioms Rustnomial.Fl.C67_div_scalar
#print axioms Rustnomial.Fl.C67_add_assoc_false
#print axioms Rustnomial.Fl.C68_mul_error
#print axioms Rustnomial.Fl.C68_mul_panics_iff
#print axioms Rustnomial.Fl.C68_mul_comm_false
#print axioms Rustnomial.Fl.C69_derivative_f64
#print axioms Rustnomial.Fl.C69_derivative_f32
#print axioms Rustnomial.Fl.C69_integral_f64
#print axioms Rustnomial.Fl.C69_integral_f32
#print axioms Rustnomial.Fl.C69_returns
#print axioms Rustnomial.Fl.C70_never_panics
#print axioms Rustnomial.Fl.C70_degrees
#print axioms Rustnomial.Fl.C70_nonfinite_diverges
#print axioms Rustnomial.Fl.C70_diverges
#print axioms Rustnomial.Fl.C70_quotient_false
#print axioms Rustnomial.Fl.C70_power_of_two
#print axioms Rustnomial.Fl.C70_large_lead_diverges
#print axioms Rustnomial.Fl.C70_monic
#print axioms Rustnomial.Fl.C70_rounds
#print axioms Rustnomial.Fl.C70_terminates
#print axioms Rustnomial.Fl.C70_lead_diverges
#print axioms Rustnomial.Fl.C70_terminates_iff
#print axioms Rustnomial.C71_monomial_checked
#print axioms Rustnomial.C71_sparse_mul_checked
#print axioms Rustnomial.C71_sparse_pow_checked
#print axioms Rustnomial.C71_sparse_pow_overflow
#print axioms Rustnomial.C71_monomial_shl_checked
#print axioms Rustnomial.C71_sparse_shl_checked
#print axioms Rustnomial.C71_integral_checked
#print axioms Rustnomial.C71_mul_poly_vec_checked
#print axioms Rustnomial.C72_monomial_wrapping
#print axioms Rustnomial.C72_sparse_shl_wrapping
#print axioms Rustnomial.C72_sparse_mul_wrapping
#print axioms Rustnomial.C72_sparse_pow_wrapping
#print axioms Rustnomial.C72_release_mul_false
#print axioms Rustnomial.C73_shift_min_checked
#print axioms Rustnomial.C73_shift_min_diverges
#print axioms Rustnomial.C73_shift_other
#print axioms Rustnomial.C74_add_term
#print axioms Rustnomial.C74_try_sub_term
#print axioms Rustnomial.C74_from_terms
#print axioms Rustnomial.C75_exact_dense
#print axioms Rustnomial.C75_exact_sparse
#print axioms Rustnomial.C75_dense_pow
#print axioms Rustnomial.C75_dense_division
#print axioms Rustnomial.C75_dense_rem
#print axioms Rustnomial.C75_sparse_mul_pow
#print axioms Rustnomial.C75_sparse_division
#print axioms Rustnomial.C76_sparse_neg
#print axioms Rustnomial.C76_sparse_mul_scalar
#print axioms Rustnomial.C76_sparse_add
#print axioms Rustnomial.C76_sparse_sub
#print axioms Rustnomial.C76_sparse_sub_dense
#print axioms Rustnomial.C76_sparse_add_term
#print axioms Rustnomial.C76_sparse_eval
#print axioms Rustnomial.C76_sparse_mul
#print axioms Rustnomial.C76_sparse_mul_unsigned
#print axioms Rustnomial.C76_sparse_derivative
#print axioms Rustnomial.C77_sparse_division
#print axioms Rustnomial.C77_dense_rem
#print axioms Rustnomial.C78_dense_div_scalar
#print axioms Rustnomial.C78_sparse_div_scalar
#print axioms Rustnomial.C78_dense_integral
#print axioms Rustnomial.C78_sparse_integral
#print axioms Rustnomial.C79_monomial_eval
#print axioms Rustnomial.C79_monomial_ops
#print axioms Rustnomial.C79_monomial_div_scalar
#print axioms Rustnomial.C79_monomial_derivative
#print axioms Rustnomial.C79_monomial_integral
#print axioms Rustnomial.C79_monomial_try_add
#print axioms Rustnomial.C79_linear_eval
#print axioms Rustnomial.C79_linear_ops
#print axioms Rustnomial.C79_linear_div_scalar
#print axioms Rustnomial.C79_linear_integral
#print axioms Rustnomial.C79_linear_try_add
#print axioms Rustnomial.C79_quadratic_eval
#print axioms Rustnomial.C79_quadratic_ops
#print axioms Rustnomial.C79_quadratic_div_scalar
#print axioms Rustnomial.C79_quadratic_derivative
#print axioms Rustnomial.C79_quadratic_integral
#print axioms Rustnomial.C79_quadratic_try_add
#print axioms Rustnomial.C79_quadratic_discriminant
#print axioms Rustnomial.C79_quadratic_roots
#print axioms Rustnomial.C79_array_eval
#print axioms Rustnomial.C79_array_derivative
#print axioms Rustnomial.C79_array_integral
#print axioms Rustnomial.C79_array_try_add
#print axioms Rustnomial.C80_dense_pow_fits
#print axioms Rustnomial.C80_dense_pow_norm
#print axioms Rustnomial.C80_dense_pow_unsigned
#print axioms Rustnomial.C80_sparse_pow_fits
#print axioms Rustnomial.C80_sparse_pow_unsigned
#print axioms Rustnomial.C80_dense_pow_exact
#print axioms Rustnomial.C80_sparse_pow_exact
#print axioms Rustnomial.C81_sparse_scalar
#print axioms Rustnomial.C81_sparse_add_sub
#print axioms Rustnomial.C81_sparse_mul
#print axioms Rustnomial.C81_sparse_pow
#print axioms Rustnomial.C81_sparse_eval
#print axioms Rustnomial.C81_sparse_derivative
#print axioms Rustnomial.C81_dense_pow
#print axioms Rustnomial.C81_dense_derivative
#print axioms Rustnomial.C81_dense_add_term
#print axioms Rustnomial.C81_monomial
#print axioms Rustnomial.C81_linear
#print axioms Rustnomial.C81_quadratic
#print axioms Rustnomial.C81_array_eval
#print axioms Rustnomial.C82_dense_div_mod
#print axioms Rustnomial.C82_dense_rem_assign
#print axioms Rustnomial.C82_dense_monic
#print axioms Rustnomial.C82_sparse_division
#print axioms Rustnomial.C82_dense_div_mod_exact
#print axioms Rustnomial.C82_dense_rem_assign_exact
#print axioms Rustnomial.Fl.C83_sqrt
#print axioms Rustnomial.Fl.C83_sqrt_error
#print axioms Rustnomial.Fl.C83_linear_root
#print axioms Rustnomial.Fl.C84_roots_error
#print axioms Rustnomial.Fl.C84_classify
#print axioms Rustnomial.Fl.C84_integer_roots
#print axioms Rustnomial.Fl.C84_zero_leading
#print axioms Rustnomial.Fl.C84_nan
#print axioms Rustnomial.Fl.C84_cancellation_false
#print axioms Rustnomial.Fl.C84_overflow_false
#print axioms Rustnomial.Fl.C85_add
#print axioms Rustnomial.Fl.C85_sub
#print axioms Rustnomial.Fl.C85_neg
#print axioms Rustnomial.Fl.C85_mul_scalar
#print axioms Rustnomial.Fl.C85_div_scalar
#print axioms Rustnomial.Fl.C85_mul_error
#print axioms Rustnomial.Fl.C85_mul_keys
#print axioms Rustnomial.Fl.C85_derivative_error
#print axioms Rustnomial.Fl.C85_derivative_returns
#print axioms Rustnomial.Fl.C85_integral_error
#print axioms Rustnomial.Fl.C85_derivative_max_false
#print axioms Rustnomial.Fl.C85_degree
#print axioms Rustnomial.Fl.C85_terms
#print axioms Rustnomial.Fl.C85_eq
#print axioms Rustnomial.Fl.C85_div_outcome
#print axioms Rustnomial.Fl.C85_div_equal
#print axioms Rustnomial.Fl.C85_div_equal_false
#print axioms Rustnomial.Fl.C85_eval_error
#print axioms Rustnomial.Fl.C85_eval_exact
#print axioms Rustnomial.Fl.C85_div_equal_outcome
#print axioms Rustnomial.Fl.C85_div_equal_terminates
#print axioms Rustnomial.Fl.C85_div_equal_diverges
#print axioms Rustnomial.Fl.C86_dense
#print axioms Rustnomial.Fl.C86_dense_self
#print axioms Rustnomial.Fl.C86_dense_term
#print axioms Rustnomial.Fl.C86_monomial
#print axioms Rustnomial.Fl.C86_binomial
#print axioms Rustnomial.Fl.C86_trinomial
#print axioms Rustnomial.Fl.C86_array
#print axioms Rustnomial.Fl.C86_binomial_eval
#print axioms Rustnomial.Fl.C86_trinomial_eval
#print axioms Rustnomial.Fl.C86_monomial_eval
#print axioms Rustnomial.Fl.C86_array_eval
#print axioms Rustnomial.Fl.C86_eval_exact
#print axioms Rustnomial.Fl.C86_binomial_add
#print axioms Rustnomial.Fl.C86_trinomial_add
#print axioms Rustnomial.Fl.C86_mul_scalar
#print axioms Rustnomial.Fl.C86_div_scalar
#print axioms Rustnomial.Fl.C86_monomial_mul
#print axioms Rustnomial.Fl.C86_derivative
#print axioms Rustnomial.Fl.C86_monomial_derivative
#print axioms Rustnomial.Fl.C86_monomial_integral
#print axioms Rustnomial.Fl.C86_integral
#print axioms Rustnomial.Fl.C86_array_calculus_f64
#print axioms Rustnomial.Fl.C86_array_calculus_f32
#print axioms Rustnomial.Fl.C86_monomial_pow
#print axioms Rustnomial.Fl.C87_dense_add_sub
#print axioms Rustnomial.Fl.C87_sparse_add_sub
#print axioms Rustnomial.Fl.C87_dense_mul
#print axioms Rustnomial.Fl.C87_sparse_mul
#print axioms Rustnomial.Fl.C87_dense_pow
#print axioms Rustnomial.Fl.C87_dense_div
#print axioms Rustnomial.Fl.C87_sparse_pow
#print axioms Rustnomial.Fl.C87_dense_scalar
#print axioms Rustnomial.Fl.C87_sparse_scalar
#print axioms Rustnomial.Fl.C87_dense_derivative
#print axioms Rustnomial.Fl.C87_sparse_derivative
#print axioms Rustnomial.Fl.C88_parse_iff
#print axioms Rustnomial.Fl.C88_parse
#print axioms Rustnomial.Fl.C88_dense
#print axioms Rustnomial.Fl.C88_sparse
#print axioms Rustnomial.Fl.C88_monomial
#print axioms Rustnomial.Fl.C88_binomial
#print axioms Rustnomial.Fl.C88_trinomial
#print axioms Rustnomial.Fl.C88_texts
#print axioms Rustnomial.Fl.C88_nonfinite
#print axioms Rustnomial.Fl.C89_dense_pow_error
#print axioms Rustnomial.Fl.C89_dense_pow_returns
#print axioms Rustnomial.Fl.C89_pow_false
#print axioms Rustnomial.Fl.C89_sparse_pow_error
#print axioms Rustnomial.Fl.C90_deflation
#print axioms Rustnomial.Fl.C90_deflation_eval
#print axioms Rustnomial.Fl.C90_round
#print axioms Rustnomial.Fl.C90_deflation_backward
#print axioms Rustnomial.Fl.C90_dense_roots
#print axioms Rustnomial.Fl.C90_sparse_roots
#print axioms Rustnomial.Fl.C90_returns
#print axioms Rustnomial.Fl.C90_infinite_iff
#print axioms Rustnomial.Fl.C90_linear
#print axioms Rustnomial.Fl.C90_quadratic
#print axioms Rustnomial.Fl.C90_overflow_false
#print axioms Rustnomial.Fl.C91_try_add
#print axioms Rustnomial.Fl.C91_try_sub
#print axioms Rustnomial.Fl.C91_outcomes
#print axioms Rustnomial.Fl.C91_add_poly
#print axioms Rustnomial.Fl.C91_sub_poly
#print axioms Rustnomial.Fl.C91_int
#print axioms Rustnomial.Fl.C91_mul_poly_vec
#print axioms Rustnomial.Fl.C91_mul_int
#print axioms Rustnomial.Fl.C91_from_terms
#print axioms Rustnomial.Fl.C91_macro_sink
#print axioms Rustnomial.Fl.C91_macro
#print axioms Rustnomial.Fl.C92_widen
#print axioms Rustnomial.Fl.C92_widen_mul
#print axioms Rustnomial.Fl.C92_of_int
#print axioms Rustnomial.Fl.C92_table
#print axioms Rustnomial.Fl.C92_upcast_float
#print axioms Rustnomial.Fl.C92_upcast_int
#print axioms Rustnomial.Fl.C92_dense_shift
#print axioms Rustnomial.Fl.C92_sparse_shift
#print axioms Rustnomial.Fl.C92_fixed_shift
#print axioms Rustnomial.Fl.C92_trim
#print axioms Rustnomial.Fl.C93_dense_f64
#print axioms Rustnomial.Fl.C93_dense_f32
#print axioms Rustnomial.Fl.C93_sparse_f64
#print axioms Rustnomial.Fl.C93_sparse_f32
#print axioms Rustnomial.Fl.C93_dense_whole
#print axioms Rustnomial.Fl.C93_sparse_whole
#print axioms Rustnomial.Fl.C93_limits
#print axioms Rustnomial.Fl.C93_replace_c
#print axioms Rustnomial.Fl.C94_roots_backward
#print axioms Rustnomial.Fl.C94_real_factors_shape
#print axioms Rustnomial.Fl.C94_real_factors
#print axioms Rustnomial.Fl.C94_classify
#print axioms Rustnomial.Fl.C94_whole
#print axioms Rustnomial.Fl.C94_complex_factors_partial
#print axioms Rustnomial.Fl.C94_array
#print axioms Rustnomial.Fl.C94_complex_false
#print axioms Rustnomial.Fl.C94_constant_false
#print axioms Rustnomial.Fl.C95_cubic_backward
#print axioms Rustnomial.Fl.C95_triple_root
#print axioms Rustnomial.Fl.C95_roots
#print axioms Rustnomial.Fl.C95_roots_triple
#print axioms Rustnomial.Fl.C95_first_false
#print axioms Rustnomial.C96_monomial_in_place
#print axioms Rustnomial.C96_binomial_in_place
#print axioms Rustnomial.C96_trinomial_in_place
#print axioms Rustnomial.C96_sparse_in_place
#print axioms Rustnomial.C96_dense_in_place
#print axioms Rustnomial.C96_fixed_shift_in_place
#print axioms Rustnomial.C96_sparse_add_in_place
#print axioms Rustnomial.C96_sparse_scalar_in_place
#print axioms Rustnomial.C96_dense_more_in_place
#print axioms Rustnomial.C96_dense_shift_in_place
#print axioms Rustnomial.C97_pow
#print axioms Rustnomial.C97_dense_mul
#print axioms Rustnomial.C97_sparse_mul
#print axioms Rustnomial.C97_eval
#print axioms Rustnomial.C97_div_mod
#print axioms Rustnomial.Fl.C98_unique
#print axioms Rustnomial.Fl.C98_add
#print axioms Rustnomial.Fl.C98_neg
#print axioms Rustnomial.Fl.C98_sub
#print axioms Rustnomial.Fl.C98_mul
#print axioms Rustnomial.Fl.C98_div
#print axioms Rustnomial.Fl.C98_eq
#print axioms Rustnomial.Fl.C98_of_nat
#print axioms Rustnomial.Fl.C98_abs_sqrt
#print axioms Rustnomial.Fl.C98_sign
#print axioms Rustnomial.C99_div_mod
#print axioms Rustnomial.C99_rem_assign
#print axioms Rustnomial.C99_stuck
#print axioms Rustnomial.C99_cases
#print axioms Rustnomial.C99_zero
#print axioms Rustnomial.C99_rem_assign_min
#print axioms Rustnomial.Fl.C100_powi_error
#print axioms Rustnomial.Fl.C100_powi_exact
#print axioms Rustnomial.Fl.C100_powi_zero
#print axioms Rustnomial.Fl.C100_sparse_eval
#print axioms Rustnomial.Fl.C100_sparse_eval_exact
#print axioms Rustnomial.Fl.C100_stored_zero_false
#print axioms Rustnomial.Fl.C100_monomial_eval
#print axioms Rustnomial.Fl.C100_monomial_pow
#print axioms Rustnomial.C100_int_pow
#print axioms Rustnomial.C101_trimmed
#print axioms Rustnomial.C101_trimmed_div
#print axioms Rustnomial.C101_grow_length
#print axioms Rustnomial.C101_sum_length
#print axioms Rustnomial.C101_product_length
#print axioms Rustnomial.C101_calculus_length
#print axioms Rustnomial.C101_shift_length
#print axioms Rustnomial.C101_rem_assign_length
#print axioms Rustnomial.C101_sparse_sum_entries
#print axioms Rustnomial.C101_sparse_build_entries
#print axioms Rustnomial.C101_sparse_product_entries
#print axioms Rustnomial.C101_sparse_div_entries
#print axioms Rustnomial.C101_sparse_counts
#print axioms Rustnomial.C101_storage_grows
#print axioms Rustnomial.C101_trimmed_degree
#print axioms Rustnomial.C101_calculus_trimmed
#print axioms Rustnomial.C101_parse_size
#print axioms Rustnomial.C102_add_poly_dense
#print axioms Rustnomial.C102_add_poly_sparse
#print axioms Rustnomial.C102_sub_poly_dense
#print axioms Rustnomial.C102_sub_poly_sparse
#print axioms Rustnomial.C102_from_terms_dense
#print axioms Rustnomial.C102_from_terms_sparse
#print axioms Rustnomial.C102_mul_poly_vec_dense
#print axioms Rustnomial.C102_mul_poly_vec_sparse
#print axioms Rustnomial.C102_parse_dense
#print axioms Rustnomial.C102_parse_sparse
#print axioms Rustnomial.C102_parse_linear
#print axioms Rustnomial.C102_parse_quadratic
#print axioms Rustnomial.C102_parse_monomial
#print axioms Rustnomial.C102_poly_add
#print axioms Rustnomial.C102_poly_sub
#print axioms Rustnomial.C102_wrap
#print axioms Rustnomial.C102_parse_wrap
#print axioms Rustnomial.C102_round_dense
#print axioms Rustnomial.C102_round_sparse
#print axioms Rustnomial.C102_round_monomial
#print axioms Rustnomial.C102_round_linear
#print axioms Rustnomial.C102_round_quadratic
#print axioms Rustnomial.C102_unsigned_order
#print axioms Rustnomial.C102_order_matters
#print axioms Rustnomial.C102_huge_degree
#print axioms Rustnomial.C103_dense
#print axioms Rustnomial.C103_sparse
#print axioms Rustnomial.C103_monomial
#print axioms Rustnomial.C103_binomial
#print axioms Rustnomial.C103_trinomial
#print axioms Rustnomial.C103_array
#print axioms Rustnomial.C103_numbers
#print axioms Rustnomial.C103_build
#print axioms Rustnomial.C103_from_str
#print axioms Rustnomial.C103_degrees
#print axioms Rustnomial.C103_converse_false
#print axioms Rustnomial.C104_products
#print axioms Rustnomial.C104_linear
#print axioms Rustnomial.C104_quadratic
#print axioms Rustnomial.C104_array
#print axioms Rustnomial.C104_array_term
#print axioms Rustnomial.C104_monomial
#print axioms Rustnomial.C104_mul
#print axioms Rustnomial.C104_mul_wrap
#print axioms Rustnomial.C104_dense_unsigned
#print axioms Rustnomial.C104_sparse_unsigned
#print axioms Rustnomial.C104_signed_wrap
#print axioms Rustnomial.C105_dense_definite
#print axioms Rustnomial.C105_sparse_definite
#print axioms Rustnomial.C105_definite_wrap
#print axioms Rustnomial.C105_definite_unsigned
#print axioms Rustnomial.C105_dense_replace_c
#print axioms Rustnomial.C105_sparse_replace_c
#print axioms Rustnomial.C105_replace_c_wrap
#print axioms Rustnomial.C105_linear_root
#print axioms Rustnomial.C105_array_root
#print axioms Rustnomial.C105_real_factors
#print axioms Rustnomial.C105_complex_factors
#print axioms Rustnomial.C105_roots_wrap
#print axioms Rustnomial.C105_factors_wrap
#print axioms Rustnomial.C105_array_same
#print axioms Rustnomial.C106_dense_checked
#print axioms Rustnomial.C106_sparse_checked
#print axioms Rustnomial.C106_dense_wrap
#print axioms Rustnomial.C106_sparse_wrap
#print axioms Rustnomial.C107_array
#print axioms Rustnomial.C107_binomial
#print axioms Rustnomial.C107_trinomial
#print axioms Rustnomial.C107_monomial
#print axioms Rustnomial.C107_binomial_checked
#print axioms Rustnomial.C107_trinomial_checked
#print axioms Rustnomial.C107_array_checked
#print axioms Rustnomial.C107_monomial_checked
#print axioms Rustnomial.C107_binomial_wrap
#print axioms Rustnomial.C107_trinomial_wrap
#print axioms Rustnomial.C107_array_wrap
#print axioms Rustnomial.C107_monomial_wrap
#print axioms Rustnomial.C108_dense_derivative_linear
#print axioms Rustnomial.C108_dense_product_rule
#print axioms Rustnomial.C108_dense_power_rule
#print axioms Rustnomial.C108_macros_derivative
#print axioms Rustnomial.C108_dense_integral_linear
#print axioms Rustnomial.C108_dense_fundamental
#print axioms Rustnomial.C108_dense_by_parts
#print axioms Rustnomial.C108_macros_integral
#print axioms Rustnomial.C108_sparse_derivative_laws
#print axioms Rustnomial.C108_sparse_integral_linear
#print axioms Rustnomial.C108_sparse_integral_derivative
#print axioms Rustnomial.C108_sparse_fundamental_partial
#print axioms Rustnomial.C109_div_mod_of_mul_add
#print axioms Rustnomial.C109_mul_add_of_div_mod
#print axioms Rustnomial.C109_exact_quotient
#print axioms Rustnomial.C109_remainder_theorem
#print axioms Rustnomial.C109_factor_theorem
#print axioms Rustnomial.C109_modular_arithmetic
#print axioms Rustnomial.C109_int_always_returns_iff
#print axioms Rustnomial.C109_int_remainder_theorem
#print axioms Rustnomial.C109_int_div_mod_of_mul_add
#print axioms Rustnomial.C110_dense_add_degree
#print axioms Rustnomial.C110_dense_mul_degree
#print axioms Rustnomial.C110_dense_shr_degree
#print axioms Rustnomial.C110_dense_shl_degree
#print axioms Rustnomial.C110_dense_derivative_degree
#print axioms Rustnomial.C110_dense_integral_degree
#print axioms Rustnomial.C110_sparse_add_degree
#print axioms Rustnomial.C110_sparse_mul_degree
#print axioms Rustnomial.C110_sparse_shr_degree
#print axioms Rustnomial.C110_sparse_derivative_degree
#print axioms Rustnomial.C110_sparse_integral_degree
#print axioms Rustnomial.C110_monomial_degree
#print axioms Rustnomial.C110_fixed_derivative_degree
#print axioms Rustnomial.C110_fixed_sum_degree
#print axioms Rustnomial.C110_fixed_shr_degree
#print axioms Rustnomial.C110_monomial_pow_degree
#print axioms Rustnomial.C110_fixed_integral_degree
#print axioms Rustnomial.C111_append
#print axioms Rustnomial.C111_concat
#print axioms Rustnomial.C111_swap
#print axioms Rustnomial.C111_separators
#print axioms Rustnomial.C111_same_clean
#print axioms Rustnomial.C111_separators_false
#print axioms Rustnomial.C111_only_separators
#print axioms Rustnomial.C111_flip
#print axioms Rustnomial.C111_flip_int
#print axioms Rustnomial.C111_leading_plus
#print axioms Rustnomial.C111_leading_plus_int
#print axioms Rustnomial.Fl.C112_dense_error
#print axioms Rustnomial.Fl.C112_sparse_error
#print axioms Rustnomial.Fl.C112_dense_whole
#print axioms Rustnomial.Fl.C112_sparse_whole
#print axioms Rustnomial.Fl.C112_returns
#print axioms Rustnomial.C113_term
#print axioms Rustnomial.C113_any_error
#print axioms Rustnomial.C113_any_accept
#print axioms Rustnomial.C113_never
#print axioms Rustnomial.C113_error
#print axioms Rustnomial.C113_accept
#print axioms Rustnomial.C114_lists
#print axioms Rustnomial.C114_lists_sparse
#print axioms Rustnomial.C114_only
#print axioms Rustnomial.C114_only_sparse
#print axioms Rustnomial.C114_eval
#print axioms Rustnomial.C114_scale
#print axioms Rustnomial.C114_mul
#print axioms Rustnomial.C114_shl
#print axioms Rustnomial.C114_deflate
#print axioms Rustnomial.C114_derivative
#print axioms Rustnomial.Fl.C115_add_coeff
#print axioms Rustnomial.Fl.C115_sub_coeff
#print axioms Rustnomial.Fl.C115_neg_coeff
#print axioms Rustnomial.Fl.C115_scale_coeff
#print axioms Rustnomial.Fl.C115_mul_coeff
#print axioms Rustnomial.Fl.C115_same
#print axioms Rustnomial.Fl.C115_congr
#print axioms Rustnomial.Fl.C115_add_laws
#print axioms Rustnomial.Fl.C115_mul_neg
#print axioms Rustnomial.Fl.C115_mul_const
#print axioms Rustnomial.Fl.C115_mul_comm
#print axioms Rustnomial.Fl.C115_scale_laws
#print axioms Rustnomial.Fl.C115_eval_neg
#print axioms Rustnomial.Fl.C115_shl_coeff
#print axioms Rustnomial.Fl.C115_shl_laws
#print axioms Rustnomial.Fl.C115_laws_false
#print axioms Rustnomial.Fl.C116_coeffs
#print axioms Rustnomial.Fl.C116_mono
#print axioms Rustnomial.Fl.C116_integral_f64
#print axioms Rustnomial.Fl.C116_integral_f32
#print axioms Rustnomial.Fl.C116_reflect
#print axioms Rustnomial.Fl.C116_even_odd
#print axioms Rustnomial.Fl.C116_upow
#print axioms Rustnomial.Fl.C116_sparse
#print axioms Rustnomial.Fl.C116_sparse_false
#print axioms Rustnomial.Fl.C116_upow_neg
#print axioms Rustnomial.Fl.C116_sparse_reflect
#print axioms Rustnomial.Fl.C116_fixed
#print axioms Rustnomial.Fl.C116_fixed_reflect
#print axioms Rustnomial.Fl.C116_sparse_odd
#print axioms Rustnomial.Fl.C116_monomial_reflect
#print axioms Rustnomial.Fl.C117_neg
#print axioms Rustnomial.Fl.C117_scale_false
#print axioms Rustnomial.Fl.C117_linear_neg
#print axioms Rustnomial.Fl.C117_mirror
#print axioms Rustnomial.Fl.C117_cubic_neg
#print axioms Rustnomial.Fl.C117_cubic_mirror
#print axioms Rustnomial.Fl.C117_order
#print axioms Rustnomial.Fl.C117_poly_neg
#print axioms Rustnomial.Fl.C117_sparse_neg
#print axioms Rustnomial.C117_int_neg
#print axioms Rustnomial.C117_int_mirror
#print axioms Rustnomial.C117_real_scale
#print axioms Rustnomial.C117_real_mirror
#print axioms Rustnomial.C117_real_cubic_scale
#print axioms Rustnomial.C117_real_cubic_mirror
#print axioms Rustnomial.C117_real_roots_scale
#print axioms Rustnomial.C118_dense_checked
#print axioms Rustnomial.C118_dense_wrap
#print axioms Rustnomial.C118_sparse_checked
#print axioms Rustnomial.C118_sparse_wrap
#print axioms Rustnomial.C119_dense
#print axioms Rustnomial.C119_sparse
#print axioms Rustnomial.C119_values
#print axioms Rustnomial.C119_dense_checked
#print axioms Rustnomial.C119_sparse_checked
#print axioms Rustnomial.C119_dense_wrap
#print axioms Rustnomial.C119_sparse_wrap
#print axioms Rustnomial.C119_values_wrap
#print axioms Rustnomial.C119_field
#print axioms Rustnomial.Fl.C120_dense_error
#print axioms Rustnomial.Fl.C120_sparse_error
#print axioms Rustnomial.Fl.C120_dense_value
#print axioms Rustnomial.Fl.C120_dense_whole
#print axioms Rustnomial.Fl.C120_sparse_whole
#print axioms Rustnomial.Fl.C120_sparse_returns
#print axioms Rustnomial.Fl.C120_dense_panics
#print axioms Rustnomial.Fl.C120_normal
#print axioms Rustnomial.Fl.C120_whole_of_total
#print axioms Rustnomial.C121_outcome
#print axioms Rustnomial.C121_dense_program
#print axioms Rustnomial.C121_sparse_program
#print axioms Rustnomial.C121_same_answer
#print axioms Rustnomial.C121_checks_only_panic
#print axioms Rustnomial.C121_dense_wrap_program
#print axioms Rustnomial.C121_sparse_wrap_program
#print axioms Rustnomial.C121_same_wrap_answer
#print axioms Rustnomial.C122_dense_determined
#print axioms Rustnomial.C122_sparse_determined
#print axioms Rustnomial.C122_dense_zero
#print axioms Rustnomial.C122_dense_function
#print axioms Rustnomial.C122_congruence
#print axioms Rustnomial.C122_special_points
#print axioms Rustnomial.C122_checked_determined
#print axioms Rustnomial.C122_sparse_checked_determined
#print axioms Rustnomial.C122_one_value
#print axioms Rustnomial.C122_wrap_determined
#print axioms Rustnomial.C122_wrap_vanishes_iff
#print axioms Rustnomial.C122_wrap_vanishing_degree
#print axioms Rustnomial.C122_float_false
#print axioms Rustnomial.C123_gcd_rem_assign
#print axioms Rustnomial.C123_gcd_div_mod
#print axioms Rustnomial.C123_common_roots
#print axioms Rustnomial.C123_coprime
#print axioms Rustnomial.C123_squarefree
#print axioms Rustnomial.C123_extended
#print axioms Rustnomial.C123_extended_panics
#print axioms Rustnomial.C123_gcd_rem_diverges
#print axioms Rustnomial.C123_gcd_rem_zero
#print axioms Rustnomial.C123_sparse_gcd
#print axioms Rustnomial.Fl.C124_dense_backward
#print axioms Rustnomial.Fl.C124_array_backward
#print axioms Rustnomial.Fl.C124_binomial_backward
#print axioms Rustnomial.Fl.C124_trinomial_backward
#print axioms Rustnomial.Fl.C124_sparse_backward
#print axioms Rustnomial.Fl.C124_error_computed
#print axioms Rustnomial.Fl.C124_sign
#print axioms Rustnomial.Fl.C124_sign_complete
#print axioms Rustnomial.Fl.C124_bracket
#print axioms Rustnomial.Fl.C124_gamma_small
#print axioms Rustnomial.Fl.C124_sign_in_floats
#print axioms Rustnomial.C125_compose
#print axioms Rustnomial.C125_compose_panics_iff
#print axioms Rustnomial.C125_shift
#print axioms Rustnomial.C125_compose_terms
#print axioms Rustnomial.C125_compose_terms_zero
#print axioms Rustnomial.C125_sparse_compose
#print axioms Rustnomial.C125_compose_agree
#print axioms Rustnomial.C125_newton
#print axioms Rustnomial.C125_newton_samples
#print axioms Rustnomial.C125_newton_repeated
#print axioms Rustnomial.C126_dense_read
#print axioms Rustnomial.C126_dense_binary
#print axioms Rustnomial.C126_dense_unary
#print axioms Rustnomial.C126_dense_div
#print axioms Rustnomial.C126_dense_calculus
#print axioms Rustnomial.C126_eq
#print axioms Rustnomial.C126_display
#print axioms Rustnomial.C126_sparse_read
#print axioms Rustnomial.C126_sparse_binary
#print axioms Rustnomial.C126_sparse_unary
#print axioms Rustnomial.C126_sparse_div
#print axioms Rustnomial.C126_sparse_calculus
#print axioms Rustnomial.C126_expr
#print axioms Rustnomial.C126_expr_ring
#print axioms Rustnomial.C126_history
#print axioms Rustnomial.C126_image
#print axioms Rustnomial.C126_image_ring
#print axioms Rustnomial.C126_integers_in_rationals
#print axioms Rustnomial.C126_zero_signs
#print axioms Rustnomial.C126_zero_signs_read
#print axioms Rustnomial.C126_zero_signs_sparse
#print axioms Rustnomial.C126_monomial
#print axioms Rustnomial.C126_monomial_more
#print axioms Rustnomial.C126_binomial
#print axioms Rustnomial.C126_binomial_more
#print axioms Rustnomial.C126_trinomial
#print axioms Rustnomial.C126_trinomial_more
#print axioms Rustnomial.C126_array
#print axioms Rustnomial.Fl.C127_add
#print axioms Rustnomial.Fl.C127_sub
#print axioms Rustnomial.Fl.C127_mul
#print axioms Rustnomial.Fl.C127_div
#print axioms Rustnomial.Fl.C127_sqrt
#print axioms Rustnomial.Fl.C127_eval
#print axioms Rustnomial.Fl.C127_eval_whole
#print axioms Rustnomial.Fl.C127_sum
#print axioms Rustnomial.Fl.C127_scalar
#print axioms Rustnomial.Fl.C127_product
#print axioms Rustnomial.Fl.C127_derivative_f64
#print axioms Rustnomial.Fl.C127_derivative_f32
#print axioms Rustnomial.Fl.C127_integral_f64
#print axioms Rustnomial.Fl.C127_integral_f32
#print axioms Rustnomial.Fl.C127_eval_fixed
#print axioms Rustnomial.Fl.C127_roots
#print axioms Rustnomial.Fl.C127_false
#print axioms Rustnomial.Fl.C128_number
#print axioms Rustnomial.Fl.C128_sum
#print axioms Rustnomial.Fl.C128_product
#print axioms Rustnomial.Fl.C128_scalar
#print axioms Rustnomial.Fl.C128_eval
#print axioms Rustnomial.Fl.C128_eval_fixed
#print axioms Rustnomial.Fl.C128_derivative
#print axioms Rustnomial.Fl.C128_integral
#print axioms Rustnomial.Fl.C128_scalar_div
#print axioms Rustnomial.Fl.C128_closed
#print axioms Rustnomial.Fl.C128_pow
#print axioms Rustnomial.Fl.C128_sparse_sum
#print axioms Rustnomial.Fl.C128_sparse_product
#print axioms Rustnomial.Fl.C128_sparse_derivative
#print axioms Rustnomial.Fl.C128_false
#print axioms Rustnomial.C129_multiplicity
#print axioms Rustnomial.C129_multiplicity_zero
#print axioms Rustnomial.C129_divide_out
#print axioms Rustnomial.C129_taylor_divide
#print axioms Rustnomial.C129_taylor_derive
#print axioms Rustnomial.C129_squarefree_part
#print axioms Rustnomial.C129_multiplicity_wrapping_false
#print axioms Rustnomial.C130_mul_mod
#print axioms Rustnomial.C130_pow_mod
#print axioms Rustnomial.C130_pow_mod_irreducible
#print axioms Rustnomial.C130_inv_mod
#print axioms Rustnomial.C130_pow_mod_panics
#print axioms Rustnomial.Fl.C131_bisect
#print axioms Rustnomial.Fl.C131_less
#print axioms Rustnomial.Fl.C131_bisect_certain
#print axioms Rustnomial.Fl.C131_rounds_f64
#print axioms Rustnomial.Fl.C131_rounds_f32
#print axioms Rustnomial.Fl.C132_positive_roots
#print axioms Rustnomial.Fl.C132_negative_roots
#print axioms Rustnomial.Fl.C132_odd_changes
#print axioms Rustnomial.Fl.C132_exact_terms
#print axioms Rustnomial.Fl.C132_integer_terms
#print axioms Rustnomial.Fl.C132_float_terms
#print axioms Rustnomial.Fl.C132_root_bound
#print axioms Rustnomial.Fl.C132_root_bound_float
#print axioms Rustnomial.C133_count
#print axioms Rustnomial.C133_count_reversed
#print axioms Rustnomial.C133_all
#print axioms Rustnomial.C133_integer_false
#print axioms Rustnomial.C134_isolate
#print axioms Rustnomial.C134_isolate_returns
#print axioms Rustnomial.C134_isolate_any
#print axioms Rustnomial.C135_newton
#print axioms Rustnomial.C135_one_change
#print axioms Rustnomial.C135_rightmost
#print axioms Rustnomial.C136_resultant
#print axioms Rustnomial.C136_common_factor
#print axioms Rustnomial.C136_discriminant
#print axioms Rustnomial.C136_repeated
#print axioms Rustnomial.C136_trinomial
#print axioms Rustnomial.C137_rem
#print axioms Rustnomial.C137_rem_same
#print axioms Rustnomial.C137_mul
#print axioms Rustnomial.C137_mul_same
#print axioms Rustnomial.C137_pow
#print axioms Rustnomial.C137_pow_same
#print axioms Rustnomial.C137_shift
#print axioms Rustnomial.C137_shift_same
#print axioms Rustnomial.C137_derivative
#print axioms Rustnomial.C137_derivative_same
#print axioms Rustnomial.C137_sparse_div_mod
#print axioms Rustnomial.C137_sparse_div_mod_same
#print axioms Rustnomial.C137_array_terms
#print axioms Rustnomial.C137_sparse_eval
#print axioms Rustnomial.C137_sparse_eval_same
#print axioms Rustnomial.C137_order
#print axioms Rustnomial.C137_complex_factors
#print axioms Rustnomial.C137_cubic
#print axioms Rustnomial.C137_cubic_same
#print axioms Rustnomial.Fl.C138_division
#print axioms Rustnomial.Fl.C138_zero
#print axioms Rustnomial.Fl.C138_field_same
#print axioms Rustnomial.Fl.C138_power_of_two_same
#print axioms Rustnomial.C138_integer
#print axioms Rustnomial.C138_integer_same
#print axioms Rustnomial.Fl.C139_mul
#print axioms Rustnomial.Fl.C139_pow
#print axioms Rustnomial.Fl.C139_upow
#print axioms Rustnomial.Fl.C139_sparse_eval
#print axioms Rustnomial.Fl.C139_complex_factors
#print axioms Rustnomial.Fl.C140_division
#print axioms Rustnomial.Fl.C140_shift_alone_false
#print axioms Rustnomial.Fl.C140_zero
#print axioms Rustnomial.Fl.C140_field_same
#print axioms Rustnomial.C141_division
#print axioms Rustnomial.C141_zero
#print axioms Rustnomial.C141_gcd
#print axioms Rustnomial.C141_count
#print axioms Rustnomial.C141_count_reversed
#print axioms Rustnomial.C142_division
#print axioms Rustnomial.C142_division_outcome
#print axioms Rustnomial.C142_gcd
#print axioms Rustnomial.C142_count
#print axioms Rustnomial.C142_count_reversed
#print axioms Rustnomial.C142_unchecked_false
#print axioms Rustnomial.C143_share_root
#print axioms Rustnomial.C143_distinct_roots
#print axioms Rustnomial.C143_machine
#print axioms Rustnomial.C144_rational_roots
#print axioms Rustnomial.C144_zero
#print axioms Rustnomial.C144_irreducible
#print axioms Rustnomial.C145_integer_roots
#print axioms Rustnomial.C145_zero
#print axioms Rustnomial.C145_unchecked_false
#print axioms Rustnomial.C146_count_all
#print axioms Rustnomial.C146_positive
#print axioms Rustnomial.C146_machine
