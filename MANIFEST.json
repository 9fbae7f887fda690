{
 "claims": [
  {
   "property": "C01",
   "status": "proved",
   "theorems": [
    "Verif.C01_parents_before_children"
   ],
   "note": ""
  },
  {
   "property": "C02",
   "status": "proved",
   "theorems": [
    "Verif.C02_names_index_bijection"
   ],
   "note": ""
  },
  {
   "property": "C03",
   "status": "proved",
   "theorems": [
    "Verif.C03_acyclic",
    "Verif.C03_cyclic_error_sound",
    "Verif.C03_cyclic_iff"
   ],
   "note": ""
  },
  {
   "property": "C04",
   "status": "proved",
   "theorems": [
    "Verif.C04_layout_order_independent"
   ],
   "note": ""
  },
  {
   "property": "C05",
   "status": "proved",
   "theorems": [
    "Verif.C05_depth_longest_chain",
    "Verif.C05_layout_sorted"
   ],
   "note": ""
  },
  {
   "property": "C06",
   "status": "proved",
   "theorems": [
    "Verif.C06_roots_no_condition",
    "Verif.C06_conditional_iff"
   ],
   "note": ""
  },
  {
   "property": "C07",
   "status": "partial",
   "theorems": [
    "Verif.C07_second_condition_rejected",
    "Verif.C07_equal_condition_accepted_partial",
    "Verif.C07_equal_condition_changes_check",
    "Verif.C07_equal_condition_raises"
   ],
   "note": "The first half is proved in full. The second half assumes that conditions (also those added again) and clauses mention the hyperparameters of the space (OwnConds, OwnClauses). For an equal condition whose parent lists the choices in another order it is false of the code: two witnesses."
  },
  {
   "property": "C08",
   "status": "partial",
   "theorems": [
    "Verif.C08_rejected_add_keeps_layout_partial",
    "Verif.C08_single_item_unchanged_partial",
    "Verif.C08_rejected_batch_leaves_hyperparameter",
    "Verif.C08_rejected_clause_stays",
    "Verif.C08_rejected_cycle_breaks_later_add"
   ],
   "note": "False of the code (three witnesses); the partial theorems say what a failing add leaves unchanged."
  },
  {
   "property": "C09",
   "status": "proved",
   "theorems": [
    "Verif.C09_clauses_kept_and_classified"
   ],
   "note": ""
  },
  {
   "property": "C10",
   "status": "proved",
   "theorems": [
    "Verif.C10_merged_clauses_equivalent",
    "Verif.C10_foreign_hyperparameter_differs"
   ],
   "note": "For clauses built from the space's own hyperparameters; the witness shows that this restriction is needed."
  },
  {
   "property": "C100",
   "status": "proved",
   "theorems": [
    "Verif.Walk.C100_fair",
    "Verif.Walk.C100_ends",
    "Verif.Walk.C100_gives_up_rarely",
    "Verif.Walk.C100_calls_exist"
   ],
   "note": "For independent, uniformly drawn positions and independent, identically distributed proposals (one number per hyperparameter). The generator itself (numpy) is not modelled; C100_calls_exist shows that such calls exist for every distribution of the proposals."
  },
  {
   "property": "C101",
   "status": "partial",
   "theorems": [
    "Verif.Files.C101_json_is_the_dictionary",
    "Verif.Files.C101_json_round_trip_partial",
    "Verif.Files.C101_tuple_conditions_change",
    "Verif.Files.C101_yaml_fails_iff",
    "Verif.Files.C101_yaml_is_the_dictionary_partial",
    "Verif.Files.C101_yaml_round_trip_partial",
    "Verif.JText.C101_text_is_read_back",
    "Verif.JText.C101_texts_differ",
    "Verif.JText.C101_json_text_round_trip_partial",
    "Verif.JText.C101_only_ascii"
   ],
   "note": "False of the code: a YAML file cannot be loaded exactly if the space has an in-clause or an in-condition on a tuple (tuples get a tag that the safe loader refuses), and an in-condition on a tuple comes back from JSON with a list, unequal to the saved one. Otherwise the round trip holds under the hypothesis of C42. The text of JSON files is modelled character by character and is read back as it was written; of YAML files only what the loader makes of what the dumper wrote."
  },
  {
   "property": "C102",
   "status": "proved",
   "theorems": [
    "Verif.Files.C102_equal_dictionaries"
   ],
   "note": "Numbers in the two dictionaries must be the same, with the same type (1 and 1.0 are equal for Python but different values here)."
  },
  {
   "property": "C103",
   "status": "partial",
   "theorems": [
    "Verif.Rebuild.C103_rounding_twice",
    "Verif.Rebuild.C103_created",
    "Verif.Rebuild.C103_drawn_partial",
    "Verif.Rebuild.C103_drawn_refused"
   ],
   "note": "Configurations made from dictionaries come back exactly, in double precision, if float bounds are as the constructors keep them. False of the code for drawn configurations: values are rounded to thirteen decimals when they are read, so a condition or clause on a float can change its answer and the dictionary is refused. Without such conditions and clauses drawn configurations come back (integer bounds below 2^49)."
  },
  {
   "property": "C104",
   "status": "partial",
   "theorems": [
    "Verif.F64.C104_log_drawn_value",
    "Verif.F64.C104_log_all_drawn",
    "Verif.F64.C104_log_same_entry",
    "Verif.F64.C104_log_drawn_entry_partial",
    "Verif.F64.C104_log_drawn_entry_differs"
   ],
   "note": "Legal entries, values within the bounds and that every integer can be drawn are proved. False of the code for the entry: on the range 1..44 every drawn 24 has an entry below to_vector(24), with correctly rounded log and exp, so that equality conditions and clauses on 24 miss it. If upper - lower is a power of two the entry is the one of to_vector. The linear scale is in C75."
  },
  {
   "property": "C105",
   "status": "partial",
   "theorems": [
    "Verif.AnyNum.C105_merged_clauses",
    "Verif.AnyNum.C105_check_partial",
    "Verif.AnyNum.C105_rigorous_partial",
    "Verif.AnyNum.C105_literals_separable",
    "Verif.AnyNum.C105_sample_count",
    "Verif.AnyNum.C105_every_draw_used_once",
    "Verif.AnyNum.C105_samples_not_forbidden",
    "Verif.AnyNum.C105_samples_pass_check_partial",
    "Verif.AnyNum.C105_samples_valid_partial",
    "Verif.AnyNum.C105_every_valid_sampled_partial",
    "Verif.AnyNum.C105_change_partial",
    "Verif.AnyNum.C105_change_keeps_partial",
    "Verif.AnyNum.C105_change_forbidden_partial",
    "Verif.AnyNum.C105_assign_partial",
    "Verif.AnyNum.C105_exact_check",
    "Verif.AnyNum.C105_linear_check",
    "Verif.AnyNum.C105_linear_samples_partial",
    "Verif.AnyNum.C105_samples_rebuilt_partial",
    "Verif.AnyNum.C105_linear_every_drawn_partial",
    "Verif.AnyNum.C105_double_check_partial",
    "Verif.AnyNum.C105_double_samples_partial",
    "Verif.AnyNum.C105_double_every_valid_sampled_partial",
    "Verif.AnyNum.C105_double_assign_partial"
   ],
   "note": "Proved for every arithmetic, under the guards of C17, C23 and C26 (grouped conditions with one meaning, which is proved when all conditions are literals; weakly layered conditions; without them the claims are false of the code, see there). The models of C17 (exact) and of C76 (doubles, linear scales) are shown to be instances; a third instance has doubles on linear and logarithmic scales with any functions for np.log and np.exp. With C103: what is drawn in doubles can be made again from its dictionary if no condition or clause looks at a float."
  },
  {
   "property": "C106",
   "status": "partial",
   "theorems": [
    "Verif.C106_new_round_trip_partial",
    "Verif.C106_old_round_trip_partial",
    "Verif.C106_distribution_lost",
    "Verif.C106_new_line_is_constructor",
    "Verif.C106_log_needs_positive",
    "Verif.C106_unknown_scale_ignored",
    "Verif.C106_old_line_is_constructor",
    "Verif.C106_old_second_letter_ignored",
    "Verif.C106_linear_as_in_files"
   ],
   "note": "Names, types, bounds, defaults and scales are kept in both formats. False of the code: normal and beta distributions silently become uniform (C106_distribution_lost), and a marker that is not understood is ignored (C106_unknown_scale_ignored, C106_old_second_letter_ignored). Parameter lines only; conditions and clauses are in C67 and C73, and C106_linear_as_in_files says that the lines are the same there."
  },
  {
   "property": "C107",
   "status": "partial",
   "theorems": [
    "Verif.AnyNum.C107_one_value_exchanged",
    "Verif.AnyNum.C107_neighbours_valid_partial",
    "Verif.AnyNum.C107_neighbours_differ",
    "Verif.AnyNum.C107_number_of_neighbours",
    "Verif.AnyNum.C107_generator_ends",
    "Verif.AnyNum.C107_no_failure",
    "Verif.AnyNum.C107_choices_exhausted",
    "Verif.AnyNum.C107_exact",
    "Verif.AnyNum.C107_double_neighbours_valid_partial",
    "Verif.AnyNum.C107_double_neighbours_differ_partial"
   ],
   "note": "Validity needs weakly layered conditions and clauses that mention the exchanged hyperparameter; without this it is false of the code (C10). That the original is not yielded needs that it is not proposed, which is false of the code for large integer ranges (C108). C107_exact links the model to that of C10, the double theorems to C108."
  },
  {
   "property": "C108",
   "status": "partial",
   "theorems": [
    "Verif.F64.C108_categorical",
    "Verif.F64.C108_ordinal",
    "Verif.F64.C108_floats",
    "Verif.F64.C108_integers",
    "Verif.F64.C108_integers_all",
    "Verif.F64.C108_integers_fresh_partial",
    "Verif.F64.C108_log_integers",
    "Verif.F64.C108_log_integers_fresh_partial",
    "Verif.F64.C108_log_integers_all_partial",
    "Verif.F64.C108_current_integer_proposed",
    "Verif.AnyNum.C108_legal_partial",
    "Verif.AnyNum.C108_fresh_partial"
   ],
   "note": "Legality, distinctness and numbers hold for ranges up to 2^49 (linear) and 2^39 (logarithmic). That a value is not its own neighbour and that all others are returned is proved for u - l < 2^25 on linear and (u - l) * u <= 2^37 on logarithmic scales; it is false of the code for large ranges (C108_current_integer_proposed: quantising moves the centre to another level)."
  },
  {
   "property": "C109",
   "status": "partial",
   "theorems": [
    "Verif.F64.C109_no_steps",
    "Verif.F64.C109_one_step",
    "Verif.F64.C109_linear_floats",
    "Verif.F64.C109_linear_ints",
    "Verif.F64.C109_all_integers",
    "Verif.F64.C109_log_floats_partial",
    "Verif.F64.C109_log_ints",
    "Verif.F64.C109_log_float_illegal"
   ],
   "note": "Proved on linear scales for ranges wider than 2^-900 (floats) and bounds up to 2^52 (integers), on logarithmic scales for integers below 2^39 and for floats whose grid points are apart by a factor of 1 + 2^-38. For closer points on a logarithmic scale it is false of the code (C109_log_float_illegal)."
  },
  {
   "property": "C11",
   "status": "proved",
   "theorems": [
    "Verif.C11_condition_array_eq_single"
   ],
   "note": ""
  },
  {
   "property": "C110",
   "status": "partial",
   "theorems": [
    "Verif.AnyNum.C110_validators",
    "Verif.AnyNum.C110_assign",
    "Verif.AnyNum.C110_session",
    "Verif.AnyNum.C110_exact_session",
    "Verif.F64.C110_double_validators_partial",
    "Verif.F64.C110_double_accepted_iff_valid_partial",
    "Verif.F64.C110_double_session_partial"
   ],
   "note": "C110_validators, C110_assign and C110_session hold for any two arithmetics that order the values alike. For doubles this is proved for numbers with at most 13 decimal places, integer bounds below 2^49 (2^39 on logarithmic scales), float bounds of at most 32 (times the size of the logarithms), and clauses that compare float ranges only with the same range on the same scale. Values that differ by less than the spacing of doubles collide, so no version without guard is true."
  },
  {
   "property": "C111",
   "status": "partial",
   "theorems": [
    "Verif.F64.C111_nan_refused",
    "Verif.F64.C111_accepted",
    "Verif.F64.C111_infinite_default",
    "Verif.F64.C111_finite_bounds",
    "Verif.F64.C111_finite_bounds_log_partial",
    "Verif.F64.C111_equal_logs",
    "Verif.F64.C111_log_entries_nan",
    "Verif.F64.C111_infinite_bound_accepted",
    "Verif.F64.C111_infinite_lower_refused",
    "Verif.F64.C111_both_infinite_accepted",
    "Verif.F64.C111_infinite_bound_collapses",
    "Verif.F64.C111_large_bound_becomes_infinite",
    "Verif.F64.C111_int_accepted",
    "Verif.F64.C111_int_not_finite_refused",
    "Verif.F64.C111_int_legal",
    "Verif.F64.C111_int_bounds_kept",
    "Verif.F64.C111_int_huge_raises",
    "Verif.F64.C111_int_bound_changed",
    "Verif.F64.C111_int_default_not_finite",
    "Verif.F64.C111_int_default_accepted",
    "Verif.F64.C111_int_default_kept",
    "Verif.F64.C111_int_no_default",
    "Verif.F64.C111_int_default_outside",
    "Verif.F64.C111_int_default_cut"
   ],
   "note": "NaN is refused everywhere, and with finite bounds nothing overflows (so that the theorems of C75, which has no largest number, are about all of double precision). False of the code: infinite bounds are accepted, bounds from 2e295 become infinite, and then no two values can be told apart; very narrow ranges on a logarithmic scale give NaN as entry of every value; legal_value raises TypeError for integers above 64 bits, and integer bounds above 2^53 are changed. An integer just above an upper bound of 2^53 is accepted as the default value, and default values that are close to an integer from below are cut to the integer below. Uniform floats and integers; what an integer without default value gets on a logarithmic scale is modelled but not shown to be accepted."
  },
  {
   "property": "C112",
   "status": "partial",
   "theorems": [
    "Verif.C112_accepts",
    "Verif.C112_bad_bounds",
    "Verif.C112_names_taken",
    "Verif.C112_order",
    "Verif.C112_positions_partial",
    "Verif.C112_positions_fail"
   ],
   "note": "False of the code: entries are ordered by name, so from eleven pairs on x10 comes before x2 and the i-th entry of a vector no longer belongs to the i-th pair. Proved: the positions with at most ten pairs, the order by name for any number, what is accepted and refused. Bounds are rationals; the linear scale only, as in the method."
  },
  {
   "property": "C113",
   "status": "partial",
   "theorems": [
    "Verif.C113_condition",
    "Verif.C113_clause",
    "Verif.C113_hyperparameter",
    "Verif.C113_space_partial",
    "Verif.C113_default_encoders",
    "Verif.C113_default_decoders",
    "Verif.C113_no_encoder",
    "Verif.C113_no_decoder",
    "Verif.C113_type_key_wins",
    "Verif.C113_name_taken"
   ],
   "note": "Conditions, clauses and hyperparameters: full, for codecs that belong together. Whole spaces: under the hypothesis of C42 (conditions of different children print differently). Shown to be needed: a key type in what an encoder returns replaces its name, and a name that a default uses as well takes what the default wrote. Classes of the user are not in the model, only functions for the classes that exist; without distributions, as in C42."
  },
  {
   "property": "C114",
   "status": "partial",
   "theorems": [
    "Verif.C114_hyperparameters",
    "Verif.C114_same_values",
    "Verif.C114_same_vectors_partial",
    "Verif.C114_vectors_differ",
    "Verif.C114_reflexive_transitive",
    "Verif.C114_symmetric_partial",
    "Verif.C114_not_symmetric",
    "Verif.C114_forbids_no_less",
    "Verif.C114_same_meaning_partial",
    "Verif.C114_same_vectors_forbidden_partial",
    "Verif.C114_equal_forbids_more",
    "Verif.C114_equal_other_vectors"
   ],
   "note": "Hyperparameters: equivalence and same legal values in full. Clauses: reflexive, transitive, and the right one forbids at least what the left one forbids, in full; symmetry and equal meaning unless an in clause of the left one repeats a value (both shown false otherwise); vectors if equal categorical hyperparameters list their choices in the same order (shown false otherwise). Weights are left out here, see C91."
  },
  {
   "property": "C115",
   "status": "partial",
   "theorems": [
    "Verif.Typed.C115_values_kept_partial",
    "Verif.Typed.C115_legal_iff_partial",
    "Verif.Typed.C115_constructor_partial",
    "Verif.Typed.C115_types_kept_iff",
    "Verif.Typed.C115_type_changed",
    "Verif.Typed.C115_big_integer_refused",
    "Verif.Typed.C115_null_characters",
    "Verif.Typed.C115_main_model_partial"
   ],
   "note": "Values: full unless a text ends with a null character or an integer that is not a double is listed with floats; both shown to fail otherwise. Types: exactly when they are kept; false for booleans with integers and integers with floats. Integers beyond 64 bits, infinities and NaN among the choices are not in the model."
  },
  {
   "property": "C116",
   "status": "partial",
   "theorems": [
    "Verif.C116_name_kept_partial",
    "Verif.C116_add_keeps",
    "Verif.C116_meta_lost",
    "Verif.C116_equal_iff",
    "Verif.C116_priors_drop_name"
   ],
   "note": "Name: kept by add and by writing and reading (guards as in C42). Meta data are never written, and the space without priors has neither name nor meta data: shown to fail for every space that has them."
  },
  {
   "property": "C117",
   "status": "partial",
   "theorems": [
    "Verif.C117_as_if_alone",
    "Verif.C117_first_next",
    "Verif.C117_configurations",
    "Verif.C117_next_disturbs_nothing",
    "Verif.C117_read_valid_partial",
    "Verif.C117_starts_late",
    "Verif.C117_growing_space_ends_it",
    "Verif.C117_not_those_of_the_call",
    "Verif.C117_write_changes_neighbours",
    "Verif.C117_clauses_added_meanwhile",
    "Verif.C117_condition_added_meanwhile"
   ],
   "note": "Proved for all interleavings from the first next on, for programs that do not write to the very array of the configuration and do not add to the space. False of the code: before the first next nothing is fixed, the array is not copied, a space that grows by hyperparameters ends the generator, and after a condition is added values go to wrong entries; each is shown. Clauses that are added meanwhile are respected (proved). Validity has the guards of C38."
  },
  {
   "property": "C118",
   "status": "partial",
   "theorems": [
    "Verif.Unchecked.C118_default",
    "Verif.Unchecked.C118_legal_value",
    "Verif.Unchecked.C118_choice_refused",
    "Verif.Unchecked.C118_meaning",
    "Verif.Unchecked.C118_illegal_number",
    "Verif.Unchecked.C118_above",
    "Verif.Unchecked.C118_constant",
    "Verif.Unchecked.C118_text",
    "Verif.Unchecked.C118_text_refused",
    "Verif.Unchecked.C118_copy_raises",
    "Verif.Unchecked.C118_copy_legal",
    "Verif.Unchecked.C118_not_read_back"
   ],
   "note": "Proved for numbers, choices and constants on linear scales with exact arithmetic. False of the code for texts on the range from 0 to 1 (vectors and values disagree), and such a condition can be neither copied nor read from a file; each is shown."
  },
  {
   "property": "C119",
   "status": "partial",
   "theorems": [
    "Verif.C119_lines",
    "Verif.C119_each_once",
    "Verif.C119_same_text",
    "Verif.C119_two_spaces_one_text"
   ],
   "note": "Lines and independence of the order are proved for all histories in which no child has two different conditions. False of the code: the text does not determine the space (choices 1 and text 1 print alike). Weights and scales are not part of the modelled text."
  },
  {
   "property": "C12",
   "status": "proved",
   "theorems": [
    "Verif.C12_forbidden_array_eq_single"
   ],
   "note": ""
  },
  {
   "property": "C120",
   "status": "partial",
   "theorems": [
    "Verif.Huge.C120_small",
    "Verif.Huge.C120_sum_close",
    "Verif.Huge.C120_sum_is_width",
    "Verif.Huge.C120_normal_too_small",
    "Verif.Huge.C120_raises",
    "Verif.Huge.C120_normal_raises",
    "Verif.Huge.normal_onePeak",
    "Verif.Huge.beta_onePeak",
    "Verif.Huge.quantile_exists"
   ],
   "note": "Proved up to ten million values, with an explicit bound on the error. False of the code above: the densities add up to about the width of the middle part of the distribution (for narrow normal distributions to at most 101 standard deviations), and for very narrow ones an assertion fails. Linear scale, exact arithmetic."
  },
  {
   "property": "C121",
   "status": "partial",
   "theorems": [
    "Verif.Dtype.C121_float64",
    "Verif.Dtype.C121_set_item_partial",
    "Verif.Dtype.C121_whole_keeps",
    "Verif.Dtype.C121_whole_lower_bound",
    "Verif.Dtype.C121_whole_all_active"
   ],
   "note": "Proved for every type of elements that keeps the entry of the value; in particular for choices, ordinal values, constants and bounds in arrays of whole numbers. False of the code for arrays of whole numbers otherwise: a value between the bounds is silently replaced by the lower bound, and assignments that switch a hyperparameter off always raise. Exact arithmetic."
  },
  {
   "property": "C122",
   "status": "partial",
   "theorems": [
    "Verif.C122_after_failures_partial",
    "Verif.C122_stays_unique",
    "Verif.C122_one_item",
    "Verif.C122_half_condition_stays",
    "Verif.C122_retry_repairs",
    "Verif.C122_cycle_blocks"
   ],
   "note": "Proved for all histories in which no condition was rejected for an unknown parent after another parent of it had been found; the clauses that stay mention hyperparameters of the space. False of the code otherwise: such a condition stays without the link to the unknown parent, also when that parent is added later. Adding a condition for that child again by a call that succeeds completes it, whatever successful calls come between (C122_retry_repairs). After a rejected cycle every call fails, for all histories."
  },
  {
   "property": "C123",
   "status": "partial",
   "theorems": [
    "Verif.JText.C123_cut_file_fails",
    "Verif.JText.C123_never_another_space",
    "Verif.JText.C123_old_or_new",
    "Verif.JText.C123_old_file_is_lost",
    "Verif.JText.C123_what_may_follow",
    "Verif.JText.C123_open_file_partial",
    "Verif.JText.C123_two_in_one_file",
    "Verif.JText.C123_cut_yaml_is_loaded",
    "Verif.JText.C123_failed_write_destroys",
    "Verif.JText.C123_complete_write"
   ],
   "note": "Proved for JSON files, for every space, every cut and every history of writes, from the characters of the file on; the texts of floats are those of Python as far as FloatTexts says. False of the code: while a file is written again the old one is already lost; a space written into an open file over a longer one cannot be loaded; a value that json does not know makes to_json fail after the old file was emptied; a YAML file that ends after a hyperparameter is loaded as a smaller space (modelled for cuts at the ends of items, for spaces without conditions and clauses)."
  },
  {
   "property": "C124",
   "status": "partial",
   "theorems": [
    "Verif.JText.C124_saved_again_partial",
    "Verif.JText.C124_any_number_of_rounds_partial",
    "Verif.JText.C124_order_of_definition_partial",
    "Verif.JText.C124_file_changes",
    "Verif.JText.C124_clauses_that_print_alike",
    "Verif.JText.C124_equal_spaces_other_files"
   ],
   "note": "Proved for spaces whose conditions print differently (loading and saving), and for spaces whose clauses print differently and in which no child gets two conditions that differ in their order (order of definition). False of the code otherwise, and for spaces that compare equal: the order of choices is not compared but written."
  },
  {
   "property": "C125",
   "status": "partial",
   "theorems": [
    "Verif.C125_positive_iff_another",
    "Verif.C125_number",
    "Verif.C125_default_used_partial",
    "Verif.C125_has_neighbors_partial",
    "Verif.C125_default_not_used",
    "Verif.C125_default_not_used'",
    "Verif.C125_just_outside",
    "Verif.C125_single_choice"
   ],
   "note": "Proved: a legal value has a positive number of neighbours exactly if there is another legal value, for every hyperparameter, and the number is that of the other choices, the neighbours in a sequence or the other integers. False of the code without a value: for choices, sequences and integers the answer is always larger than the one for the default value; has_neighbors() is true of a hyperparameter with a single value; a legal value just outside an integer range counts one neighbour too many. The guarded parts are proved."
  },
  {
   "property": "C126",
   "status": "partial",
   "theorems": [
    "Verif.C126_cut_in_parameters_partial",
    "Verif.C126_hyperparameters_kept_partial",
    "Verif.C126_hyperparameters_lost",
    "Verif.C126_clauses_lost",
    "Verif.C126_condition_changed"
   ],
   "note": "Proved, for every space that can be written and every place among the lines of hyperparameters: the part cannot be loaded, or it is a space with the first hyperparameters, none of them changed, without conditions and clauses; and every part of the file, wherever it ends, cannot be loaded or gives a proper space whose hyperparameters are the first ones, unchanged. False of the code: for every number k a part of the file is loaded as the space of the first k hyperparameters; a part is loaded as the space without its clauses, for every space; a file cut inside a condition is loaded with another condition. The JSON format does not have this problem (C123). What a part that ends among the conditions can be is not characterised in general."
  },
  {
   "property": "C127",
   "status": "partial",
   "theorems": [
    "Verif.Keyed.C127_found_partial",
    "Verif.Keyed.C127_equal_found_partial",
    "Verif.Keyed.C127_nothing_else",
    "Verif.Keyed.C127_discard_partial",
    "Verif.Keyed.C127_lost",
    "Verif.Keyed.C127_lost_with_another",
    "Verif.Keyed.C127_same_value_lost"
   ],
   "note": "Proved for every history in which no configuration that is in the set is assigned to; that nothing else is found, for every history; that equal configurations are found, for configurations with native values (C45). False of the code: a configuration that is assigned to is lost in the set and can be in it twice; a configuration that was not assigned to is lost if an equal one stood for it; assigning the value that is there may lose it as well. The protocol of sets is that of CPython as far as it depends on __hash__ and __eq__; the space does not grow meanwhile (for this see C87)."
  },
  {
   "property": "C128",
   "status": "partial",
   "theorems": [
    "Verif.Loop.C128_visits_active_partial",
    "Verif.Loop.C128_values_partial",
    "Verif.Loop.C128_each_once",
    "Verif.Loop.C128_exception",
    "Verif.Loop.C128_earlier_assigned",
    "Verif.Loop.C128_snapshot_raises"
   ],
   "note": "Proved for every space and configuration and for every body that assigns only to the hyperparameter that is visited: assigning to it may switch others on or off, but only later ones, because children come after their parents. That no name is visited twice, for every body. False of the code: for a body that assigns to another hyperparameter, one that was visited may be inactive afterwards; a loop over list(config) raises where the loop over config does not. The space does not grow meanwhile (for this see C87)."
  },
  {
   "property": "C129",
   "status": "partial",
   "theorems": [
    "Verif.Commute.C129_configuration_order_partial",
    "Verif.Commute.C129_configuration_same_value",
    "Verif.Commute.C129_configuration_repeated",
    "Verif.Commute.C129_dictionary_order_partial",
    "Verif.Commute.C129_order_matters",
    "Verif.AnyNum.C129_order_partial",
    "Verif.AnyNum.C129_same_value",
    "Verif.AnyNum.C129_repeated"
   ],
   "note": "Repeated assignments and assignments of the value that is there: for every space, without any guard on the conditions (the configuration passes check_configuration, as every configuration does after an accepted assignment). Order: for hyperparameters on which nothing depends in common, if the first assignment of the other order is accepted as well; for any number of assignments, if both orders are accepted. False of the code when a third hyperparameter depends on both: it may be switched off in between and comes back with its default value (C129_order_matters). For exact numbers with the configuration object, and for the vectors in any arithmetic, doubles included."
  },
  {
   "property": "C13",
   "status": "partial",
   "theorems": [
    "Verif.C13_value_eq_vector_partial",
    "Verif.C13_unset_parent_false",
    "Verif.C13_not_equals_unset_parent_differs"
   ],
   "note": "False of the code for NotEqualsCondition with an unset parent (witness proved); proved for all other cases."
  },
  {
   "property": "C130",
   "status": "partial",
   "theorems": [
    "Verif.Commute.C130_undo_partial",
    "Verif.Commute.C130_value_lost"
   ],
   "note": "Proved if the assignment switched no hyperparameter off (others may be switched on), for spaces with the guards of C23 (grouped conditions mean the same, conditions are layered, as they are when every condition tests one parent). False of the code when something is switched off: it comes back with its default value, and the value that was chosen is lost (C130_value_lost)."
  },
  {
   "property": "C131",
   "status": "partial",
   "theorems": [
    "Verif.Threads.C131_reads_partial",
    "Verif.Threads.C131_never_wrong",
    "Verif.Threads.C131_reads_at_calls",
    "Verif.Threads.C131_ends",
    "Verif.Threads.C131_array_serial",
    "Verif.Threads.C131_no_invented_value",
    "Verif.Threads.ExTh.C131_reader_raises",
    "Verif.Threads.ExTh.C131_stale",
    "Verif.Threads.ExTh.C131_reader_type_error",
    "Verif.Threads.ExTh.C131_lost_assignment"
   ],
   "note": "Proved for every schedule: readers read what they read alone, if the configuration has cached values (C131_reads_partial) or if threads are switched only at calls (C131_reads_at_calls, as CPython with its global lock does since 3.10); in any case no wrong value is read (C131_never_wrong), every thread ends (C131_ends), and the array is always what some of the assignments, one after another, give (C131_array_serial), and no value is read that was not there (C131_no_invented_value). False of the code: with switches anywhere a reader among readers can get KeyError for an active hyperparameter (C131_reader_raises) and next to an assignment TypeError (C131_reader_type_error); even with switches at calls only, a read during an assignment leaves the old value in the cache for good (C131_stale), and one of two assignments can be lost (C131_lost_assignment)."
  },
  {
   "property": "C132",
   "status": "partial",
   "theorems": [
    "Verif.Threads.C132_reads",
    "Verif.Threads.C132_assignment_partial",
    "Verif.Threads.C132_assignment_uncached",
    "Verif.Threads.C132_assignment_at_calls",
    "Verif.Threads.ExIn.C132_interrupted"
   ],
   "note": "Proved for reads at every point, for assignments to configurations without cached values at every point, for assignments interrupted at calls, and otherwise at every point but one. False of the code for an assignment to a configuration with cached values that is interrupted between the lines 209 and 210: the array is the new one and the cached values are the old ones (C132_interrupted)."
  },
  {
   "property": "C133",
   "status": "partial",
   "theorems": [
    "Verif.AddCut.C133_resume",
    "Verif.AddCut.C133_repeat_fails",
    "Verif.AddCut.C133_refuses_all",
    "Verif.AddCut.C133_repair_partial",
    "Verif.AddCut.C133_repair_without_conditions",
    "Verif.AddCut.ExAc.C133_lost_clause"
   ],
   "note": "Proved for interruptions between two items, and after the last one before the transaction stores what it computes: calling add with the other items gives exactly the space of the uninterrupted call. Proved for interruptions while the transaction stores what it computes, except between the two assignments that store the clauses: calling add without arguments gives exactly the space of the uninterrupted call (C133_repair_partial); between those two a clause can get lost (C133_lost_clause), but not if the call adds no conditions (C133_repair_without_conditions). False of the code: the same call cannot be made again once a hyperparameter was entered (C133_repeat_fails), and until the call is completed the validator refuses every vector (C133_refuses_all). Missing: interruptions while one condition is entered."
  },
  {
   "property": "C134",
   "status": "proved",
   "theorems": [
    "Verif.Copies.C134_copies_independent"
   ],
   "note": "Shallow copies, used through reading and assigning by name. Writing into the array that get_array returns is a matter of C88 and not part of it."
  },
  {
   "property": "C135",
   "status": "partial",
   "theorems": [
    "Verif.Adders.C135_serial_partial",
    "Verif.Adders.C135_each_call_once",
    "Verif.Adders.C135_one_transaction",
    "Verif.Adders.C135_nothing_invented",
    "Verif.Adders.C135_ends",
    "Verif.Adders.ExAd.C135_lost_hyperparameter"
   ],
   "note": "False of the code: the pending-update flag is reset before the transaction reads and stores its nodes, so a call that starts in between can lose its hyperparameter without an exception. Proved for every schedule that does not switch threads in that part of a call; at most one thread is in a transaction, and each call ends once, under every schedule. Threads switch between the steps of the model only."
  },
  {
   "property": "C136",
   "status": "partial",
   "theorems": [
    "Verif.C44_guarded_partial",
    "Verif.UnionCut.C136_guards_fit_partial",
    "Verif.UnionCut.C136_after_first_call",
    "Verif.UnionCut.C136_illegal_value",
    "Verif.UnionCut.C136_unknown_parent",
    "Verif.UnionCut.C136_legal_value_raises"
   ],
   "note": "The first half is C44 (with its guards). With a parent of the space and a legal value all guards are made and fit, so that only the check of the default configuration can raise. The second half is false of the code, for every pair of spaces: the guard is added by a second call of add, and a value that is not legal, a parent that is not in the space or an interruption before it leave the added space in the space without its guard, and the call cannot be repeated."
  },
  {
   "property": "C14",
   "status": "partial",
   "theorems": [
    "Verif.C14_value_eq_vector_partial",
    "Verif.C14_value_eq_vector_no_relation",
    "Verif.C14_relation_near_integer_differs"
   ],
   "note": "False of the code for relations on legal integer values that are only close to an integer (witness proved); proved otherwise."
  },
  {
   "property": "C15",
   "status": "partial",
   "theorems": [
    "Verif.C15_equality_equivalence",
    "Verif.C15_equal_conditions_same_meaning_partial",
    "Verif.C15_equal_conditions_differ",
    "Verif.C15_grouped_same_meaning_partial",
    "Verif.C15_and_or_grouped_but_differ",
    "Verif.C15_repeated_literal_grouped_but_differ"
   ],
   "note": "Equality is an equivalence relation (proved). Equal conditions have the same meaning if equal categorical parents list their choices in the same order; otherwise not (witness: categorical equality ignores the order of choices). Grouping is false of the code in general (two witnesses); proved for literals and for conjunctions with the same connective of pairwise inequivalent literals."
  },
  {
   "property": "C16",
   "status": "partial",
   "theorems": [
    "Verif.C16_accepted_is_valid_partial",
    "Verif.C16_accepted_legal_roots_partial",
    "Verif.C16_illegal_root_accepted"
   ],
   "note": "check_configuration never checks that unconditional hyperparameters hold legal values (witness proved). With legal roots and separable conditions, accepted means valid."
  },
  {
   "property": "C17",
   "status": "partial",
   "theorems": [
    "Verif.C17_valid_is_accepted_partial",
    "Verif.C17_grouped_conjunctions_misjudged"
   ],
   "note": "Proved for spaces whose conditions are not merged wrongly (Separable); the witness shows the guard is needed."
  },
  {
   "property": "C18",
   "status": "partial",
   "theorems": [
    "Verif.C18_validators_agree_partial",
    "Verif.C18_or_with_inactive_parent_differs",
    "Verif.C18_not_equals_with_inactive_parent_differs"
   ],
   "note": "False of the code for Or and NotEquals conditions with an inactive parent (witnesses proved); proved for the remaining conditions."
  },
  {
   "property": "C19",
   "status": "partial",
   "theorems": [
    "Verif.C19_active_iff_set_partial"
   ],
   "note": "Same restriction as C18."
  },
  {
   "property": "C20",
   "status": "proved",
   "theorems": [
    "Verif.C20_default_configuration",
    "Verif.C20_default_is_valid"
   ],
   "note": ""
  },
  {
   "property": "C21",
   "status": "partial",
   "theorems": [
    "Verif.C21_values_kept",
    "Verif.C21_values_valid_partial",
    "Verif.C21_unknown_empty_key_accepted"
   ],
   "note": "Reading back and passing check_configuration proved in full; the unknown key '' is accepted by the code (witness); validity in the sense of C16 under the guards of C16."
  },
  {
   "property": "C22",
   "status": "proved",
   "theorems": [
    "Verif.C22_set_item",
    "Verif.C22_near_integer_reads_back_rounded"
   ],
   "note": "The value read back is exact for exact integers; the witness shows that near-integers are rounded."
  },
  {
   "property": "C23",
   "status": "partial",
   "theorems": [
    "Verif.C23_change_reestablishes_activity_partial",
    "Verif.C23_active_values_kept_partial",
    "Verif.C23_change_fails_only_if_forbidden_partial",
    "Verif.C23_single_parents_layered",
    "Verif.C23_dependant_missed",
    "Verif.C23_active_value_reset"
   ],
   "note": "Activity is re-established, and only a forbidden clause can reject the change, if the conditions are weakly layered (no parent of a condition is shallower than all parents of the conditions it depends on); values are kept if they are layered (always true when every condition tests one parent). Both fail without the guard: witnesses."
  },
  {
   "property": "C24",
   "status": "partial",
   "theorems": [
    "Verif.C24_mapping_partial",
    "Verif.C24_entries_decode",
    "Verif.C24_len_counts_inactive"
   ],
   "note": "len(config) is false of the code (witness); the rest is proved for every configuration whose entries decode."
  },
  {
   "property": "C25",
   "status": "proved",
   "theorems": [
    "Verif.C25_samples_not_forbidden"
   ],
   "note": "For every outcome of the random generator (any matrices of the right shape)."
  },
  {
   "property": "C26",
   "status": "partial",
   "theorems": [
    "Verif.C26_samples_valid_partial",
    "Verif.C26_samples_pass_check_partial",
    "Verif.C26_invalid_sample"
   ],
   "note": "Proved for spaces whose conditions are weakly layered and, for validity (but not for passing check_configuration), whose grouped conditions have the same meaning; without the first guard it is false of the code: C26_invalid_sample."
  },
  {
   "property": "C27",
   "status": "partial",
   "theorems": [
    "Verif.C27_sample_count_partial",
    "Verif.C27_sampling_ends",
    "Verif.C27_size_one_on_empty_space"
   ],
   "note": "False of the code only for size 1 on a space without hyperparameters, where a list is returned (C27_size_one_on_empty_space); all other cases proved. C27_sampling_ends gives termination when every batch contributes."
  },
  {
   "property": "C28",
   "status": "proved",
   "theorems": [
    "Verif.C28_upper_bound",
    "Verif.C28_upper_bound_accepted",
    "Verif.C28_configurations",
    "Verif.C28_exact",
    "Verif.C28_infinite",
    "Verif.C28_empty_space"
   ],
   "note": "C28_empty_space shows that the guard (at least one hyperparameter) is needed: the estimate of the empty space is 0 although the empty configuration is valid."
  },
  {
   "property": "C29",
   "status": "proved",
   "theorems": [
    "Verif.C29_round_trip",
    "Verif.C29_round_trip_log_integer"
   ],
   "note": "Over exact arithmetic."
  },
  {
   "property": "C30",
   "status": "partial",
   "theorems": [
    "Verif.C30_integer",
    "Verif.C30_integer_back",
    "Verif.C30_log_integer",
    "Verif.C30_float",
    "Verif.C30_constant",
    "Verif.C30_choices_partial",
    "Verif.C30_choices_rounded_beyond_end"
   ],
   "note": "False of the code for entries of categorical and ordinal hyperparameters that are only close to the position behind the last choice: legal, but they do not decode (witness proved). Proved for every other entry and kind."
  },
  {
   "property": "C31",
   "status": "proved",
   "theorems": [
    "Verif.Num.C31_linear",
    "Verif.Num.C31_rescale",
    "Verif.Num.C31_log"
   ],
   "note": "Over exact arithmetic."
  },
  {
   "property": "C32",
   "status": "partial",
   "theorems": [
    "Verif.Num.C32_quantize",
    "Verif.Num.C32_quantize_log",
    "Verif.Num.C32_not_nearest"
   ],
   "note": "On the grid, idempotent, monotone, inside the bounds: proved. 'Nearest grid point' is false of the code (witness proved)."
  },
  {
   "property": "C33",
   "status": "partial",
   "theorems": [
    "Verif.Num.C33_chunks_partial",
    "Verif.Num.C33_linspace",
    "Verif.Num.C33_step_two_wrong"
   ],
   "note": "False of the code for arange_chunked with a step other than 1 (witness proved); proved for step 1 and for linspace_chunked."
  },
  {
   "property": "C34",
   "status": "proved",
   "theorems": [
    "Verif.Num.C34_split",
    "Verif.Num.C34_center"
   ],
   "note": ""
  },
  {
   "property": "C35",
   "status": "partial",
   "theorems": [
    "Verif.Num.C35_categorical_partial",
    "Verif.Num.C35_ordinal_partial",
    "Verif.Num.C35_small_ignores_n",
    "Verif.Num.C35_current_value_proposed",
    "Verif.Num.C35_ordinal_illegal_neighbor"
   ],
   "note": "False of the code for n below the number of choices of small categoricals and for entries that are only close to integers (witnesses proved)."
  },
  {
   "property": "C36",
   "status": "partial",
   "theorems": [
    "Verif.Num.C36_integer_neighbors",
    "Verif.Num.C36_integer_values",
    "Verif.Num.C36_log_integer",
    "Verif.Num.C36_log_integer_total",
    "Verif.Num.C36_discretized_partial",
    "Verif.Num.C36_discretized_illegal_neighbor"
   ],
   "note": "Proved for uniform integers; for normal and beta integers asking for all neighbours gives an illegal one (witness proved)."
  },
  {
   "property": "C37",
   "status": "proved",
   "theorems": [
    "Verif.Num.C37_categorical",
    "Verif.Num.C37_ordinal",
    "Verif.Num.C37_integer"
   ],
   "note": ""
  },
  {
   "property": "C38",
   "status": "partial",
   "theorems": [
    "Verif.C38_one_value_exchanged",
    "Verif.C38_neighbours_valid_partial",
    "Verif.C38_neighbours_differ",
    "Verif.C38_forbidden_neighbour"
   ],
   "note": "What is exchanged and that clauses about the exchanged hyperparameter are respected is proved for every space; validity needs the guards of C23 and that clauses about dependants of the exchanged hyperparameter mention it. Without the latter it is false of the code: C38_forbidden_neighbour."
  },
  {
   "property": "C39",
   "status": "partial",
   "theorems": [
    "Verif.C39_grid_ends",
    "Verif.C39_grid_accepted",
    "Verif.C39_grid_valid_partial",
    "Verif.C39_grid_no_duplicates",
    "Verif.C39_integer_steps_distinct",
    "Verif.C39_float_steps_distinct",
    "Verif.C39_grid_complete_partial",
    "Verif.C39_grid_returned_partial",
    "Verif.C39_full_product",
    "Verif.C39_duplicates",
    "Verif.C39_conjunction_raises",
    "Verif.C39_not_equals_raises",
    "Verif.C39_rounding_raises",
    "Verif.C39_missing_steps_raises",
    "Verif.C39_empty_space"
   ],
   "note": "Termination, acceptance by the validator and the full product are proved for every space; absence of duplicates for steps that are different values (which holds for at most upper-lower+1 integer steps and float steps more than 1e-13 apart). Beyond the English statement: completeness and normal return under stated conditions. Counterexamples show duplicates, KeyError, RuntimeError, InactiveHyperparameterSetError, and the empty grid of the empty space."
  },
  {
   "property": "C40",
   "status": "partial",
   "theorems": [
    "Verif.C40_deactivate_ends",
    "Verif.C40_returned_restricts",
    "Verif.C40_deactivate_partial",
    "Verif.C40_complete_partial",
    "Verif.C40_valid_unchanged",
    "Verif.C40_missing_intermediate_raises",
    "Verif.C40_not_equals_raises",
    "Verif.C40_inactive_forbidden_raises",
    "Verif.C40_vector_ends",
    "Verif.C40_vector_restricts",
    "Verif.C40_vector_like_values_partial",
    "Verif.C40_complete_vectors_partial",
    "Verif.C40_vector_more_lenient",
    "Verif.C40_both_given_raises"
   ],
   "note": "Termination, and that whatever is returned is an accepted restriction of the given configuration with the same values, hold for every space. That a configuration is returned needs the stated guards; three theorems (_raises) show that without them the code raises. The same for vectors. Giving both a dictionary and a vector raises, although the documentation says the vector is then ignored (C40_both_given_raises), and vectors are checked less than dictionaries (C40_vector_more_lenient)."
  },
  {
   "property": "C41",
   "status": "partial",
   "theorems": [
    "Verif.C41_impute",
    "Verif.C41_impute_default",
    "Verif.C41_number_must_be_legal",
    "Verif.C41_imputation_forbidden"
   ],
   "note": "Proved for every space and configuration whose completed configuration is not forbidden, and whose fallback values are legal. The claim without these guards is false of the code: a clause on inactive values raises ForbiddenValueError (C41_imputation_forbidden), and a number outside the range of an inactive hyperparameter always raises (C41_number_must_be_legal)."
  },
  {
   "property": "C42",
   "status": "partial",
   "theorems": [
    "Verif.C42_round_trip_partial",
    "Verif.C42_hyperparameter",
    "Verif.C42_condition",
    "Verif.C42_clause",
    "Verif.C42_conditions_that_print_alike"
   ],
   "note": "Hyperparameters, conditions of any nesting, clauses of any nesting: full. Whole space: proved for every space whose conditions of different children print differently; false otherwise (witness proved), because space.conditions is de-duplicated by the printed form. Distributions and logarithmic scales of single hyperparameters: C83."
  },
  {
   "property": "C43",
   "status": "partial",
   "theorems": [
    "Verif.C43_flat_conditions",
    "Verif.C43_conditions_partial",
    "Verif.C43_literals",
    "Verif.C43_clauses",
    "Verif.C43_mixed_conjunction_changes_meaning"
   ],
   "note": "Clauses: full. Conditions: false when And and Or are nested in each other (witness proved); proved for one type of conjunction at any depth."
  },
  {
   "property": "C44",
   "status": "partial",
   "theorems": [
    "Verif.C44_new_names",
    "Verif.C44_rename_twice",
    "Verif.C44_name_taken",
    "Verif.C44_guarded_partial",
    "Verif.C44_not_injective",
    "Verif.C44_not_equals_escapes"
   ],
   "note": "The new name of every name, exactly which pairs of names collide, and that a collision raises; the guard for added spaces without != conditions and without clauses on nothing. Injectivity and the guard in general are false of the code: C44_not_injective, C44_not_equals_escapes. Sharing of objects between the two spaces is not in this model."
  },
  {
   "property": "C45",
   "status": "partial",
   "theorems": [
    "Verif.C45_equal_hash_partial",
    "Verif.C45_from_vector_native",
    "Verif.C45_same_vector_partial",
    "Verif.C45_eq_iff",
    "Verif.C45_eq_refl",
    "Verif.C45_eq_symm",
    "Verif.C45_eq_trans",
    "Verif.C45_equal_but_different_hash",
    "Verif.C45_same_vector_not_equal"
   ],
   "note": "False in general (3 and 3.0 are equal and hash differently; 3.00001 is stored as given), both negations proved. Proved for configurations with native values, which all configurations from vectors have."
  },
  {
   "property": "C46",
   "status": "proved",
   "theorems": [
    "Verif.C46_lines_equivalent",
    "Verif.C46_relation_raises",
    "Verif.C46_is_forbidden_value"
   ],
   "note": "For a clause of any nesting without relations: the values that match a written line are exactly those the clause forbids (and is_forbidden_value decides the latter). A clause with a relation raises."
  },
  {
   "property": "C47",
   "status": "partial",
   "theorems": [
    "Verif.Num.C47_probabilities",
    "Verif.Num.C47_weighted_density",
    "Verif.Num.C47_uniform_integer",
    "Verif.Num.C47_discretized_partial",
    "Verif.Num.C47_density_truncates",
    "Verif.Num.C47_discretized_wrong"
   ],
   "note": "Proved for categorical, ordinal and uniform integer hyperparameters; false of the code for normal and beta integers (witness proved)."
  },
  {
   "property": "C48",
   "status": "proved",
   "theorems": [
    "Verif.C48_categorical",
    "Verif.C48_categorical_accepts",
    "Verif.C48_ordinal",
    "Verif.C48_constant",
    "Verif.C48_integer",
    "Verif.C48_integer_accepts",
    "Verif.C48_float",
    "Verif.C48_float_accepts",
    "Verif.C48_default_vector",
    "Verif.C48_default_truncated"
   ],
   "note": "Linear scale. The witness shows that a default close to an integer is truncated by uniform integers, not rounded."
  },
  {
   "property": "C49",
   "status": "partial",
   "theorems": [
    "Verif.Num.C49_uniform_integer",
    "Verif.Num.C49_choices",
    "Verif.Num.C49_discretized",
    "Verif.Num.C49_log_integer",
    "Verif.Num.C49_log_normal_illegal"
   ],
   "note": "Proved for every discrete distribution except normal and beta integers with log=True, for which it is false of the code (proved)."
  },
  {
   "property": "C50",
   "status": "proved",
   "theorems": [
    "Verif.C50_meaning_kept"
   ],
   "note": ""
  },
  {
   "property": "C51",
   "status": "partial",
   "theorems": [
    "Verif.C51_grid_points_partial",
    "Verif.C51_lower_zero_partial",
    "Verif.C51_checks_disagree"
   ],
   "note": "False of the code for integers (witness proved); agreement proved on grid points and for ranges starting at 0."
  },
  {
   "property": "C52",
   "status": "proved",
   "theorems": [
    "Verif.C52_integer",
    "Verif.C52_integer_float",
    "Verif.C52_float",
    "Verif.C52_choices"
   ],
   "note": ""
  },
  {
   "property": "C53",
   "status": "proved",
   "theorems": [
    "Verif.Num.C53_float_neighbors"
   ],
   "note": ""
  },
  {
   "property": "C54",
   "status": "partial",
   "theorems": [
    "Verif.C54_int_float_int",
    "Verif.C54_to_integer_may_fail"
   ],
   "note": "Integer to float and back proved; float to integer may raise for a legal range (witness proved)."
  },
  {
   "property": "C55",
   "status": "partial",
   "theorems": [
    "Verif.C55_every_valid_can_be_sampled_partial"
   ],
   "note": "Same guards as C26."
  },
  {
   "property": "C56",
   "status": "proved",
   "theorems": [
    "Verif.C56_number_of_neighbours",
    "Verif.C56_generator_ends",
    "Verif.C56_no_failure"
   ],
   "note": "The random integers and the proposals of the single hyperparameters are universally quantified."
  },
  {
   "property": "C57",
   "status": "proved",
   "theorems": [
    "Verif.C57_choices_exhausted",
    "Verif.C57_categorical"
   ],
   "note": ""
  },
  {
   "property": "C58",
   "status": "proved",
   "theorems": [
    "Verif.C58_misfit_error_iff",
    "Verif.C58_success_fits",
    "Verif.C58_fitting_call",
    "Verif.C58_fresh_hyperparameters"
   ],
   "note": "The third theorem needs clauses over hyperparameters of the space and no empty conjunction of clauses; an empty one makes the commit raise ValueError (shown)."
  },
  {
   "property": "C59",
   "status": "partial",
   "theorems": [
    "Verif.C59_remove_priors_partial",
    "Verif.C59_plain_names_print_apart",
    "Verif.C59_mixed_conjunction_changes_validity",
    "Verif.C59_conditions_that_print_alike"
   ],
   "note": "Proved for conditions that are literals or single conjunctions and print differently; false for mixed nested conjunctions (witness proved)."
  },
  {
   "property": "C60",
   "status": "partial",
   "theorems": [
    "Verif.C60_old_default",
    "Verif.C60_old_quantisation",
    "Verif.C60_old_relation",
    "Verif.C60_both_defaults",
    "Verif.C60_old_probabilities_ignored",
    "Verif.C60_old_probabilities_lost",
    "Verif.C60_old_steps_lost"
   ],
   "note": "Old files are read as stated. False of the code: that what they say is kept. The probabilities of choices and the step width of ranges are dropped with a warning, so that other values can be drawn and are legal."
  },
  {
   "property": "C61",
   "status": "partial",
   "theorems": [
    "Verif.C61_second_decode_fails",
    "Verif.C61_encoding_decodes_once"
   ],
   "note": "The claim is false of the code, and the negation is proved: every dictionary with a hyperparameter that decodes once raises KeyError the second time."
  },
  {
   "property": "C62",
   "status": "proved",
   "theorems": [
    "Verif.C62_disjoint_union",
    "Verif.C62_check_union",
    "Verif.C62_fits"
   ],
   "note": "For added spaces whose conditions print apart, whose equal conditions have the same meaning (so for conditions on the own hyperparameters, oneMeaning_of_own) and whose names do not collide; objects are values (no sharing between the spaces)."
  },
  {
   "property": "C63",
   "status": "partial",
   "theorems": [
    "Verif.C63_same_call",
    "Verif.C63_every_space",
    "Verif.C63_side_effect",
    "Verif.C63_unchanged_iff",
    "Verif.C63_twice",
    "Verif.C63_added_space_changes"
   ],
   "note": "What is passed to add is right for every sharing pattern, and the exact side effect on the objects of the added space. That there is no side effect is false of the code: exactly the hyperparameters in equals and in clauses are renamed in place (C63_side_effect), and adding a space twice takes the clauses from the first copy (C63_twice, C63_added_space_changes)."
  },
  {
   "property": "C64",
   "status": "partial",
   "theorems": [
    "Verif.C64_one_value_changed",
    "Verif.C64_valid_partial",
    "Verif.C64_vector_changed",
    "Verif.C64_gives_up",
    "Verif.C64_single_configuration",
    "Verif.C64_returns",
    "Verif.C64_may_run_forever",
    "Verif.C64_float_may_be_unchanged"
   ],
   "note": "Acceptance, same active set and at most one changed value without further hypotheses; validity under the guards of C21; a real change for hyperparameters that are not floats. False of the code: the function never stops if all neighbours are rejected (C64_may_run_forever), and a float neighbour may round to the old value (C64_float_may_be_unchanged)."
  },
  {
   "property": "C65",
   "status": "partial",
   "theorems": [
    "Verif.C65_result",
    "Verif.C65_raises_iff",
    "Verif.C65_restores",
    "Verif.C65_other_distributions",
    "Verif.C65_ambiguous_text",
    "Verif.C65_partial_change",
    "Verif.C65_truncates"
   ],
   "note": "For choices with different texts and uniform numbers. False of the code in general: choices with equal texts (1 and '1') are refused, normal and beta hyperparameters raise, floats are truncated, and the dictionary is left half changed by an exception."
  },
  {
   "property": "C66",
   "status": "partial",
   "theorems": [
    "Verif.C66_contents_partial",
    "Verif.C66_accepts",
    "Verif.C66_rejects",
    "Verif.C66_mixed_bounds",
    "Verif.C66_key_discarded"
   ],
   "note": "proved for bounds of one type; with an integer and a float as bounds the range is rounded outwards (C66_mixed_bounds), and keys of hyperparameter objects are discarded (C66_key_discarded)"
  },
  {
   "property": "C67",
   "status": "partial",
   "theorems": [
    "Verif.C67_round_trip_partial",
    "Verif.C67_clauses_before_conditions",
    "Verif.C67_choices_become_text",
    "Verif.C67_constant_becomes_categorical",
    "Verif.C67_ordinal_becomes_categorical",
    "Verif.C67_weights_rejected",
    "Verif.C67_nested_condition_not_written",
    "Verif.C67_name_lost",
    "Verif.C67_clause_with_digit",
    "Verif.C67_mixed_connectives"
   ],
   "note": "Proved for spaces whose names and values are words, whose values are strings or numbers of the type of the hyperparameter, without constants, weights, nested conditions and relations, and in which no clause forbids the defaults of all hyperparameters. False of the code otherwise: the other theorems show for each restriction what happens without it."
  },
  {
   "property": "C68",
   "status": "proved",
   "theorems": [
    "Verif.C68_pcs_reads_a_space",
    "Verif.C68_dictionary_decodes_to_a_space",
    "Verif.C68_read_space_is_sound"
   ],
   "note": "for every text and every dictionary, under the simplifications of the decoders in the model (no log scales, uniform distributions)"
  },
  {
   "property": "C69",
   "status": "partial",
   "theorems": [
    "Verif.C69_equal_iff",
    "Verif.C69_rejected_lists",
    "Verif.C69_rejected_equal_partial",
    "Verif.C69_reflexive",
    "Verif.C69_transitive",
    "Verif.C69_symmetric_partial",
    "Verif.C69_not_symmetric",
    "Verif.C69_same_content_equal_partial",
    "Verif.C69_history_unequal",
    "Verif.C69_rebuilt_equal_partial",
    "Verif.C69_rebuilt_unequal",
    "Verif.C69_equal_same_check_partial",
    "Verif.C69_equal_spaces_differ"
   ],
   "note": "Reflexivity, transitivity and the exact characterisation hold for all reachable spaces.  Symmetry needs that no in clause of the left space repeats a value (counterexample C69_not_symmetric).  Same content implies equality if the clauses come in one call and print apart; otherwise it fails (C69_history_unequal, and C69_rebuilt_unequal for a copy).  Equal spaces check alike if equal categoricals list their choices in the same order and no in clause repeats a value; otherwise not (C69_equal_spaces_differ)."
  },
  {
   "property": "C70",
   "status": "proved",
   "theorems": [
    "Verif.C70_every_draw_used_once",
    "Verif.C70_no_clause_no_draw_lost"
   ],
   "note": "The generator is any function from batch number and batch size to a matrix of the right shape."
  },
  {
   "property": "C71",
   "status": "proved",
   "theorems": [
    "Verif.C71_children_of",
    "Verif.C71_parents_of",
    "Verif.C71_inverse",
    "Verif.C71_parent_conditions_of",
    "Verif.C71_child_conditions_of",
    "Verif.C71_unknown_name",
    "Verif.C71_order_depends_on_history"
   ],
   "note": "The order of the children is not part of the claim: it depends on the history (C71_order_depends_on_history)."
  },
  {
   "property": "C72",
   "status": "partial",
   "theorems": [
    "Verif.C72_conditions_read_their_parents_partial",
    "Verif.C72_clauses_read_their_hyperparameters_partial",
    "Verif.C72_single_space",
    "Verif.C72_own_history",
    "Verif.C72_shared_condition",
    "Verif.C72_conditions_that_print_alike"
   ],
   "note": "False of the code for an object added to two spaces (C72_shared_condition), and for two conditions of one space that print alike (C72_conditions_that_print_alike); proved without these."
  },
  {
   "property": "C73",
   "status": "partial",
   "theorems": [
    "Verif.C73_round_trip_partial",
    "Verif.C73_conditions_written",
    "Verif.C73_not_written",
    "Verif.C73_numbers_not_read",
    "Verif.C73_number_condition_not_read",
    "Verif.C73_number_clause_not_read",
    "Verif.C73_single_in_becomes_equals",
    "Verif.C73_choices_become_text",
    "Verif.C73_constant_becomes_categorical",
    "Verif.C73_integers_through_floats",
    "Verif.C73_nested_flattened"
   ],
   "note": "Proved for spaces without ordinal hyperparameters, constants and weights, whose names and choices are words, with tests for choices and conjunctions of these as conditions, with clauses on categorical hyperparameters, and with integers that are floats. False of the code otherwise: the other theorems show what happens without each restriction. Nested conjunctions: the text is that of the flat conjunction of the tests, which means the same (C73_nested_flattened); the whole-file theorem is for flat ones."
  },
  {
   "property": "C74",
   "status": "partial",
   "theorems": [
    "Verif.C74_check_partial",
    "Verif.C74_values_partial",
    "Verif.C74_set_partial",
    "Verif.C74_add_partial",
    "Verif.C74_foreign_parent_type_error",
    "Verif.C74_foreign_parent_key_error"
   ],
   "note": "validation: for spaces in which grouped conditions have the same meaning and clauses are about the space's own hyperparameters (otherwise C17_grouped_conjunctions_misjudged); add: for conditions about the space's own hyperparameters; with a parent object of the same name but another type a TypeError or KeyError escapes (witnesses)"
  },
  {
   "property": "C75",
   "status": "partial",
   "theorems": [
    "Verif.F64.C75_rounding",
    "Verif.F64.C75_vector_in_unit",
    "Verif.F64.C75_vector_ends",
    "Verif.F64.C75_vector_mono",
    "Verif.F64.C75_value_in_bounds",
    "Verif.F64.C75_value_mono",
    "Verif.F64.C75_float_error",
    "Verif.F64.C75_float_round_trip",
    "Verif.F64.C75_float_order",
    "Verif.F64.C75_int_vector",
    "Verif.F64.C75_int_value_in_bounds",
    "Verif.F64.C75_int_round_trip",
    "Verif.F64.C75_int_order",
    "Verif.F64.C75_int_legal",
    "Verif.F64.C75_int_drawn",
    "Verif.F64.C75_int_quantized",
    "Verif.F64.C75_int_quantize_fixed",
    "Verif.F64.C75_int_legal_array_partial",
    "Verif.F64.C75_legal_array_fails",
    "Verif.F64.C75_int_above_bound",
    "Verif.F64.C75_float_round_trip_fails",
    "Verif.F64.C75_float_collision",
    "Verif.F64.C75_upper_bound_not_reached",
    "Verif.F64.C75_log_vector",
    "Verif.F64.C75_log_value_in_bounds",
    "Verif.F64.C75_log_float_error",
    "Verif.F64.C75_log_int_round_trip",
    "Verif.F64.C75_log_int_value_in_bounds"
   ],
   "note": "Every operation is followed by rounding to the nearest double (ties to even, gradual underflow). Proved for all bounds and values with the stated limits on the size of the bounds. False beyond them, shown by witnesses: floats of 13 places between -1000 and 1000 (C75_float_round_trip_fails, C75_float_collision), integers above 2**53 (C75_int_above_bound), and the check of arrays of vectors rejects the vector of 0 for UniformIntegerHyperparameter(-1007, 993) (C75_legal_array_fails). Overflow, NaN and infinities are in C111; np.log and np.exp enter by their accuracy only."
  },
  {
   "property": "C76",
   "status": "partial",
   "theorems": [
    "Verif.F64.C76_validators_partial",
    "Verif.F64.C76_accepted_iff_valid_partial",
    "Verif.F64.C76_session_partial",
    "Verif.F64.C76_equal_floats_accepted",
    "Verif.F64.C76_equal_floats_less"
   ],
   "note": "Proved for spaces in which clauses compare float ranges only with float ranges of the same bounds (linear scales). False without that: a clause that forbids a == b accepts 0.9 and 0.9 when the ranges are [0, 1] and [0, 7], and one that forbids a < b refuses them. Logarithmic scales are in C110, sampled vectors in C103 and C105."
  },
  {
   "property": "C77",
   "status": "proved",
   "theorems": [
    "Verif.C77_integer_accepted_iff",
    "Verif.C77_integer_built",
    "Verif.C77_float_accepted_iff",
    "Verif.C77_float_built",
    "Verif.C77_given_default_kept",
    "Verif.C77_errors",
    "Verif.C77_to_uniform",
    "Verif.C77_to_float",
    "Verif.C77_to_integer_iff",
    "Verif.C77_int_float_int",
    "Verif.C77_categorical"
   ],
   "note": "Model/Prior.lean: the six numerical constructors, the conversions and the functions of ConfigSpace.api."
  },
  {
   "property": "C78",
   "status": "partial",
   "theorems": [
    "Verif.C78_normal_float",
    "Verif.C78_beta_float",
    "Verif.C78_uniform_float",
    "Verif.C78_uniform_integer",
    "Verif.C78_uniform_log_integer",
    "Verif.C78_choices",
    "Verif.C78_weighted",
    "Verif.C78_constant",
    "Verif.C78_illegal",
    "Verif.C78_discretized_wrong",
    "Verif.C78_discretized_too_small"
   ],
   "note": "Proved for floats (uniform, normal, beta), uniform integers on both scales, choices with and without weights, and constants. False of the code for normal and beta distributed integers: the reported number is not normalised, and the upper bound is left out."
  },
  {
   "property": "C79",
   "status": "partial",
   "theorems": [
    "Verif.C79_float_density_partial",
    "Verif.C79_uniform_float_wrong",
    "Verif.C79_value_densities"
   ],
   "note": "Proved for normal and beta distributed floats. False of the code for uniform floats: their densities are those of values on a linear scale and integrate to 1 / (upper - lower)."
  },
  {
   "property": "C80",
   "status": "partial",
   "theorems": [
    "Verif.C80_sigma_unchecked",
    "Verif.C80_log_mean_rounded_to_zero",
    "Verif.C80_units_partial",
    "Verif.C80_units_log_mean",
    "Verif.C80_log_sigma_vanishes",
    "Verif.C80_log_sigma_wrong",
    "Verif.C80_log_sigma_partial"
   ],
   "note": "Proved on the linear scale, and on logarithmic scales for the mean and for ranges that start at 1 or above. False of the code otherwise: the standard deviation is not checked at all, and on a logarithmic scale it is normalised as if it were a value, so that it may vanish or shrink."
  },
  {
   "property": "C81",
   "status": "partial",
   "theorems": [
    "Verif.C81_nesting_is_irrelevant",
    "Verif.C81_same_content_same_result",
    "Verif.C81_improper_arguments_change_nothing",
    "Verif.C81_type_error",
    "Verif.C81_text_recurses"
   ],
   "note": "Proved for every nesting that Python can recurse into. False of the code for texts: they are iterables of texts, so that add('x') raises RecursionError instead of TypeError, and add('') is accepted."
  },
  {
   "property": "C82",
   "status": "partial",
   "theorems": [
    "Verif.C82_mapping",
    "Verif.C82_rejected_call_breaks_mapping"
   ],
   "note": "Proved for all histories of successful calls. False of the code after a rejected call (witness)."
  },
  {
   "property": "C83",
   "status": "partial",
   "theorems": [
    "Verif.C83_numerical_round_trip_partial",
    "Verif.C83_rounded_mean_is_not_decoded",
    "Verif.C83_decoded_is_made"
   ],
   "note": "Proved for all numerical hyperparameters except normal distributed ones on a logarithmic scale with a mean below 5e-14, which are rounded to a mean of zero and cannot be decoded (proved)."
  },
  {
   "property": "C84",
   "status": "partial",
   "theorems": [
    "Verif.C84_copy_always_raises"
   ],
   "note": "False of the code, and the negation is proved for every class and every set of keywords: copy always raises."
  },
  {
   "property": "C85",
   "status": "partial",
   "theorems": [
    "Verif.C85_answers",
    "Verif.C85_answers_log",
    "Verif.C85_equality_log",
    "Verif.C85_equality_depends_on_history"
   ],
   "note": "Answers: proved for every history. Equality: false of the code for normally and beta distributed integers (C85_equality_depends_on_history, an exact characterisation); holds for uniform integers. Other distribution objects have no state."
  },
  {
   "property": "C86",
   "status": "partial",
   "theorems": [
    "Verif.C86_arrays_partial",
    "Verif.C86_lists_partial",
    "Verif.C86_ranges_partial",
    "Verif.C86_sequence_is_one_value",
    "Verif.C86_mixed_lists",
    "Verif.C86_unhashable_choices",
    "Verif.C86_list_accepted_as_value",
    "Verif.C86_lists_in_configurations"
   ],
   "note": "Proved for arrays, and for lists that do not mix texts and numbers. False of the code otherwise: in mixed lists numbers become texts, arrays of unhashable choices lose order and repetitions, and configurations accept a list with one legal value as a value."
  },
  {
   "property": "C87",
   "status": "partial",
   "theorems": [
    "Verif.C87_unchanged_space",
    "Verif.C87_given_values_stay",
    "Verif.C87_read_values_stay",
    "Verif.C87_same_position_partial",
    "Verif.C87_iteration_raises",
    "Verif.C87_values_exchanged"
   ],
   "note": "Given values and values that were read stay readable (proved for every later space), and so do values whose position is the same. False of the code otherwise: after any call that adds a hyperparameter iterating raises IndexError (proved for every configuration), and a call that adds a condition may exchange the values of an older configuration."
  },
  {
   "property": "C88",
   "status": "partial",
   "theorems": [
    "Verif.C88_elsewhere",
    "Verif.C88_arrays_kept",
    "Verif.C88_set",
    "Verif.C88_get",
    "Verif.C88_polite_programs_partial",
    "Verif.C88_write_changes_configurations",
    "Verif.C88_stale_value",
    "Verif.C88_integer_array_truncates",
    "Verif.C88_assigned_value_lost"
   ],
   "note": "Proved for all programs: operations on other configurations do not interfere, arrays are only written by the caller, and programs that use arrays of doubles and never write to an array of a configuration only see configurations as in C22 to C24. False of the code otherwise: arrays are not copied by the constructor, so writes change configurations without validation, values read before stay although their entry is gone, and integer arrays lose the fractional part of assigned values."
  },
  {
   "property": "C89",
   "status": "partial",
   "theorems": [
    "Verif.C89_quantised_buffer",
    "Verif.C89_continuous_buffer",
    "Verif.C89_neighbors_values_partial",
    "Verif.C89_total",
    "Verif.C89_all_values",
    "Verif.C89_float_repeats",
    "Verif.C89_constant",
    "Verif.C89_unknown_choice"
   ],
   "note": "Linear scales and uniform distributions; the buffers are shown to refine the loops of C36 and C53. Float neighbours may repeat and may be the value itself, although the docstring says unique: C89_float_repeats."
  },
  {
   "property": "C90",
   "status": "partial",
   "theorems": [
    "Verif.C90_clause_evaluates",
    "Verif.C90_clause_evaluates_array",
    "Verif.C90_only_type_error",
    "Verif.C90_undecodable_entries",
    "Verif.C90_check",
    "Verif.C90_of_values",
    "Verif.C90_add",
    "Verif.C90_histories",
    "Verif.C90_sampling",
    "Verif.C90_sampling_raises",
    "Verif.C90_both_set_rejected",
    "Verif.C90_accepted_but_never_sampled",
    "Verif.C90_array_raises_where_single_answers"
   ],
   "note": "The refinement holds for all spaces whose relations compare values with an order. False of the code otherwise: add accepts a space that can never be sampled, and arrays raise where single vectors answer (both proved)."
  },
  {
   "property": "C91",
   "status": "partial",
   "theorems": [
    "Verif.C91_densities",
    "Verif.C91_equal",
    "Verif.C91_equivalence",
    "Verif.C91_equal_densities",
    "Verif.C91_equal_other_entries",
    "Verif.C91_scaled",
    "Verif.C91_uniform",
    "Verif.C91_samples",
    "Verif.C91_sample_interval",
    "Verif.C91_illegal_raises",
    "Verif.C91_last_entry_has_no_density"
   ],
   "note": "exact arithmetic; the last sentence is false of the code: values that are not choices raise KeyError (C91_illegal_raises), and a legal entry just above the last position has no density; choices are numbers and texts, lists of values are arrays of objects"
  },
  {
   "property": "C92",
   "status": "proved",
   "theorems": [
    "Verif.C92_check_order",
    "Verif.C92_strict_total_order",
    "Verif.C92_entries",
    "Verif.C92_conditions",
    "Verif.C92_positions",
    "Verif.C92_neighbors",
    "Verif.C92_relations_use_values",
    "Verif.C92_negative_position"
   ],
   "note": "forbidden relations compare the values themselves, as documented (C92_relations_use_values); get_value accepts negative positions"
  },
  {
   "property": "C93",
   "status": "partial",
   "theorems": [
    "Verif.C93_same_parts",
    "Verif.C93_reproducible",
    "Verif.C93_sampling_refines",
    "Verif.C93_hash_order",
    "Verif.C93_repeated_clause_changes_samples"
   ],
   "note": "each child is given one condition (equal conditions may differ in the order of their components) and clauses are about the hyperparameters of the space; a clause that is repeated changes what a seed gives (C93_repeated_clause_changes_samples)"
  },
  {
   "property": "C94",
   "status": "partial",
   "theorems": [
    "Verif.Scaled.C94_accepted_iff_valid_partial",
    "Verif.Scaled.C94_scales_agree_partial",
    "Verif.Scaled.C94_samples_valid_partial",
    "Verif.Scaled.C94_samples_same_partial",
    "Verif.Scaled.C94_every_valid_can_be_sampled_partial",
    "Verif.Scaled.C94_sessions_same_partial",
    "Verif.Scaled.C94_default_partial",
    "Verif.Scaled.C94_almost_whole",
    "Verif.Scaled.C94_value_in_bounds"
   ],
   "note": "Exact real arithmetic with Real.log and Real.exp. The order of hyperparameters, the groups of conditions and the split of clauses are those of the linear space, since none of them depends on vectors. The guards on grouped and layered conditions are those of C16, C17, C26 and C55. False of the code for integers that are not quite whole: 50.0004 for a conditional integer from 49 to 60 is accepted on a logarithmic scale and rejected on a linear one."
  },
  {
   "property": "C95",
   "status": "proved",
   "theorems": [
    "Verif.Fair.C95_independent_and_alike"
   ],
   "note": "The draws are random variables on an arbitrary probability space (Mathlib measure theory). That numpy's generator behaves like independent draws is assumed, not proved."
  },
  {
   "property": "C96",
   "status": "proved",
   "theorems": [
    "Verif.Fair.C96_zero_or_one"
   ],
   "note": "As for C95."
  },
  {
   "property": "C97",
   "status": "partial",
   "theorems": [
    "Verif.Fair.C97_results_fair_partial",
    "Verif.Fair.C97_distribution_partial",
    "Verif.Fair.C97_each_configuration_partial",
    "Verif.Fair.C97_product_of_values_partial",
    "Verif.Fair.C97_fewer_active_more_likely_partial",
    "Verif.Fair.C97_same_active_equally_likely_partial",
    "Verif.Fair.C97_number_of_batches_partial",
    "Verif.Fair.C97_ends_partial",
    "Verif.Fair.C97_ends_if_satisfiable_partial",
    "Verif.Fair.C97_never_ends_partial",
    "Verif.Fair.C97_draws_exist",
    "Verif.Fair.C97_not_uniform"
   ],
   "note": "As for C95. The guards on grouped and layered conditions are those of C26; without them samples need not be valid. C97_not_uniform: with conditions, valid configurations are not equally likely although all values are."
  },
  {
   "property": "C98",
   "status": "partial",
   "theorems": [
    "Verif.Conn.C98_connected_partial",
    "Verif.Conn.C98_choices_connected_partial",
    "Verif.Conn.C98_generator_runs",
    "Verif.Conn.C98_clauses_disconnect"
   ],
   "note": "The guards on grouped and layered conditions are those of C23; linear scales and uniform distributions. Forbidden clauses can separate valid configurations: C98_clauses_disconnect."
  },
  {
   "property": "C99",
   "status": "partial",
   "theorems": [
    "Verif.C99_constant_arrays",
    "Verif.C99_constant_one",
    "Verif.C99_constant_lists_partial",
    "Verif.C99_densities_partial",
    "Verif.C99_mixed_lists",
    "Verif.C99_unhashable_choices"
   ],
   "note": "Proved for arrays, and for lists that do not mix texts and numbers. False of the code otherwise: in mixed lists a constant number is not recognised, and densities of unhashable choices come in the order of the choices."
  }
 ]
}