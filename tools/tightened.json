{
 "P1": [
  "C20_shows (new)",
  "C21_end_marker",
  "C22_nothing_lost",
  "C27_arity",
  "C37_positional_order",
  "C38_option_list",
  "C38_positional_list",
  "C38_list_after_end",
  "C65_use"
 ],
 "A18": [
  "C59_numbers (new)"
 ],
 "A19": [
  "C59_numbers (new)"
 ],
 "D8": [
  "C49_callback (new)"
 ],
 "S2": [
  "C05_exception (new)"
 ],
 "S5": [
  "C05_exception (new)",
  "C08_exception (new)"
 ],
 "S29": [
  "C61_setters (new)"
 ],
 "S30": [
  "C61_setters (new)"
 ],
 "P31": [
  "C62_settings (new)"
 ],
 "V8": [
  "C40_minmax_reject",
  "C42_path_reject"
 ],
 "L13": [
  "C80_call"
 ],
 "I2": [
  "C84_removed_by_callback"
 ],
 "Q55": [
  "C75_validators_of_copies"
 ],
 "m8:T2": [
  "C36_lists_emptied"
 ],
 "m12:K10": [
  "C85_never_interrupted"
 ],
 "Q10": [
  "C36_lists_emptied"
 ]
}